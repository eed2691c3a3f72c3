import Mathlib.LinearAlgebra.Matrix.ToLinearEquiv
import Mathlib.LinearAlgebra.Matrix.Determinant.Basic
import Verif.Model.Intersect
import Verif.Spec.Intersect
import Mathlib.Tactic.Linarith
import Mathlib.Tactic.LinearCombination
import Mathlib.Tactic.FieldSimp
import Mathlib.Tactic.Ring
import Mathlib.Tactic.NormNum
import Mathlib.Tactic.FinCases
import Mathlib.Tactic.Positivity

/-!
# C39: intersection of a segment with a triangle

Right whenever the segment does not lie in the plane of the triangle; both kinds of error occur when
it does.
-/

namespace MiniCFD.Intersect

open MiniCFD.Spec.Intersect

variable {K : Type*} [Field K] [LinearOrder K] [IsStrictOrderedRing K]

/-- The solver solves regular systems. -/
def Regular (solve : Columns K → Point K → Point K) : Prop :=
  ∀ m b, determinant m ≠ 0 → times m (solve m b) = b

omit [LinearOrder K] [IsStrictOrderedRing K] in
/-- Cramer's rule. -/
theorem cramer (m : Columns K) (l : Point K) :
    l 0 * determinant m = determinant ![times m l, m 1, m 2] ∧
      l 1 * determinant m = determinant ![m 0, times m l, m 2] ∧
      l 2 * determinant m = determinant ![m 0, m 1, times m l] := by
  simp only [determinant, times, Matrix.cons_val_zero, Matrix.cons_val_one, Matrix.cons_val]
  refine ⟨?_, ?_, ?_⟩ <;> ring

omit [LinearOrder K] [IsStrictOrderedRing K] in
theorem times_inj (m : Columns K) (h : determinant m ≠ 0) (l k : Point K) (e : times m l = times m k) :
    l = k := by
  have h1 := cramer m l
  have h2 := cramer m k
  rw [e] at h1
  funext i
  fin_cases i
  · exact mul_right_cancel₀ h (h1.1.trans h2.1.symm)
  · exact mul_right_cancel₀ h (h1.2.1.trans h2.2.1.symm)
  · exact mul_right_cancel₀ h (h1.2.2.trans h2.2.2.symm)

/-- The first end is outside the plane of the triangle. -/
theorem first_regular (solve : Columns K → Point K → Point K) (hs : Regular solve)
    (pa pb pc pq : Point K) (h : determinant ![pa, pb, pc] ≠ 0) (ratio : K) :
    (∃ r, MeetsAt pa pb pc pq r ∧ intersect solve pa pb pc pq ratio = r) ∨
      (¬ ∃ r, MeetsAt pa pb pc pq r) ∧ intersect solve pa pb pc pq ratio = ratio := by
  have key : ∀ r, MeetsAt pa pb pc pq r → ∃ u v w : K, 0 ≤ u ∧ 0 ≤ v ∧ 0 ≤ w ∧ u + v + w = 1 ∧
      0 < r ∧ solve ![pa, pb, pc] pq = ![u / r, v / r, w / r] := by
    rintro r ⟨r0, r1, u, v, w, hu, hv, hw, s, e⟩
    have r0 : 0 < r := by
      rcases r0.lt_or_eq with r0 | r0
      · exact r0
      · exfalso
        have : times ![pa, pb, pc] ![u, v, w] = times ![pa, pb, pc] ![0, 0, 0] := by
          funext i
          have := e i
          simp only [times, Matrix.cons_val_zero, Matrix.cons_val_one, Matrix.cons_val] at this ⊢
          linear_combination -this - r0 * pq i
        have := times_inj _ h _ _ this
        have h0 := congrFun this 0
        have h1 := congrFun this 1
        have h2 := congrFun this 2
        simp only [Matrix.cons_val_zero, Matrix.cons_val_one, Matrix.cons_val] at h0 h1 h2
        rw [h0, h1, h2] at s
        norm_num at s
    refine ⟨u, v, w, hu, hv, hw, s, r0, ?_⟩
    refine times_inj _ h _ _ ((hs _ _ h).trans ?_)
    funext i
    have := e i
    simp only [times, Matrix.cons_val_zero, Matrix.cons_val_one, Matrix.cons_val]
    field_simp
    linear_combination this
  have hl := hs ![pa, pb, pc] pq h
  have prep : prepare pa pb pc pq = (![pa, pb, pc], false) := by simp only [prepare, if_neg h]
  set l := solve ![pa, pb, pc] pq with hl'
  by_cases c : (0 ≤ l 0 ∧ 0 ≤ l 1 ∧ 0 ≤ l 2) ∧ 1 ≤ l 0 + l 1 + l 2
  · left
    have sp : 0 < l 0 + l 1 + l 2 := lt_of_lt_of_le one_pos c.2
    refine ⟨1 / (l 0 + l 1 + l 2), ⟨by positivity, ?_, l 0 / (l 0 + l 1 + l 2),
      l 1 / (l 0 + l 1 + l 2), l 2 / (l 0 + l 1 + l 2), div_nonneg c.1.1 sp.le,
      div_nonneg c.1.2.1 sp.le, div_nonneg c.1.2.2 sp.le, by field_simp, ?_⟩, ?_⟩
    · rw [div_le_one sp]; exact c.2
    · intro i
      have := congrFun hl i
      simp only [times, Matrix.cons_val_zero, Matrix.cons_val_one, Matrix.cons_val] at this
      rw [← this]
      field_simp
    · rw [intersect, prep]
      simp only [← hl', Bool.false_eq_true, if_false]
      rw [if_pos c.1, if_pos c.2]
  · right
    constructor
    · rintro ⟨r, hr⟩
      obtain ⟨u, v, w, hu, hv, hw, s, r0, e⟩ := key r hr
      apply c
      rw [e]
      simp only [Matrix.cons_val_zero, Matrix.cons_val_one, Matrix.cons_val]
      refine ⟨⟨div_nonneg hu r0.le, div_nonneg hv r0.le, div_nonneg hw r0.le⟩, ?_⟩
      rw [← add_div, ← add_div, s, le_div_iff₀ r0]
      linarith [hr.2.1]
    · rw [intersect, prep]
      simp only [← hl', Bool.false_eq_true, if_false]
      split_ifs with h1 h2
      · exact absurd ⟨h1, h2⟩ c
      · rfl
      · rfl

/-- The first end lies in the plane of the triangle, the second one does not. -/
theorem second_regular (solve : Columns K → Point K → Point K) (hs : Regular solve)
    (pa pb pc pq : Point K) (h0 : determinant ![pa, pb, pc] = 0)
    (h : determinant (fun j i => (![pa, pb, pc] : Columns K) j i - pq i) ≠ 0) (ratio : K) :
    (∃ r, MeetsAt pa pb pc pq r ∧ intersect solve pa pb pc pq ratio = r) ∨
      (¬ ∃ r, MeetsAt pa pb pc pq r) ∧ intersect solve pa pb pc pq ratio = ratio := by
  set m : Columns K := fun j i => (![pa, pb, pc] : Columns K) j i - pq i with hm
  have key : ∀ r, MeetsAt pa pb pc pq r → ∃ u v w : K, 0 ≤ u ∧ 0 ≤ v ∧ 0 ≤ w ∧ u + v + w = 1 ∧
      0 < 1 - r ∧ solve m pq = ![-u / (1 - r), -v / (1 - r), -w / (1 - r)] := by
    rintro r ⟨r0, r1, u, v, w, hu, hv, hw, s, e⟩
    have r1 : 0 < 1 - r := by
      rcases r1.lt_or_eq with r1 | r1
      · linarith
      · exfalso
        have : times m ![u, v, w] = times m ![0, 0, 0] := by
          funext i
          have := e i
          simp only [times, hm, Matrix.cons_val_zero, Matrix.cons_val_one, Matrix.cons_val] at this ⊢
          linear_combination -this - pq i * s + r1 * pq i
        have := times_inj _ h _ _ this
        have h0 := congrFun this 0
        have h1 := congrFun this 1
        have h2 := congrFun this 2
        simp only [Matrix.cons_val_zero, Matrix.cons_val_one, Matrix.cons_val] at h0 h1 h2
        rw [h0, h1, h2] at s
        norm_num at s
    refine ⟨u, v, w, hu, hv, hw, s, r1, ?_⟩
    refine times_inj _ h _ _ ((hs _ _ h).trans ?_)
    funext i
    have := e i
    simp only [times, hm, Matrix.cons_val_zero, Matrix.cons_val_one, Matrix.cons_val]
    field_simp
    linear_combination -this - pq i * s
  have hl := hs m pq h
  have prep : prepare pa pb pc pq = (m, true) := by
    simp only [prepare, h0, if_true]
    rw [if_neg h]
  set l := solve m pq with hl'
  by_cases c : (0 ≤ -l 0 ∧ 0 ≤ -l 1 ∧ 0 ≤ -l 2) ∧ 1 ≤ -l 0 + -l 1 + -l 2
  · left
    have sp : 0 < -l 0 + -l 1 + -l 2 := lt_of_lt_of_le one_pos c.2
    refine ⟨(-l 0 + -l 1 + -l 2 - 1) / (-l 0 + -l 1 + -l 2), ⟨?_, ?_, -l 0 / (-l 0 + -l 1 + -l 2),
      -l 1 / (-l 0 + -l 1 + -l 2), -l 2 / (-l 0 + -l 1 + -l 2), div_nonneg c.1.1 sp.le,
      div_nonneg c.1.2.1 sp.le, div_nonneg c.1.2.2 sp.le, ?_, ?_⟩, ?_⟩
    · exact div_nonneg (by linarith [c.2]) sp.le
    · rw [div_le_one sp]; linarith
    · rw [← add_div, ← add_div, div_self sp.ne']
    · intro i
      have := congrFun hl i
      simp only [times, hm, Matrix.cons_val_zero, Matrix.cons_val_one, Matrix.cons_val] at this
      rw [div_mul_eq_mul_div, div_mul_eq_mul_div, div_mul_eq_mul_div, div_mul_eq_mul_div, ← add_div,
        ← add_div]
      congr 1
      linear_combination this
    · rw [intersect, prep]
      simp only [← hl', if_true]
      rw [if_pos c.1, if_pos c.2]
  · right
    constructor
    · rintro ⟨r, hr⟩
      obtain ⟨u, v, w, hu, hv, hw, s, r1, e⟩ := key r hr
      apply c
      rw [e]
      simp only [Matrix.cons_val_zero, Matrix.cons_val_one, Matrix.cons_val, neg_div, neg_neg]
      refine ⟨⟨div_nonneg hu r1.le, div_nonneg hv r1.le, div_nonneg hw r1.le⟩, ?_⟩
      rw [← add_div, ← add_div, s, le_div_iff₀ r1]
      linarith [hr.1]
    · rw [intersect, prep]
      simp only [← hl', if_true]
      split_ifs with h1 h2
      · exact absurd ⟨h1, h2⟩ c
      · rfl
      · rfl

/-- Unless both ends of the segment lie in the plane of the triangle, the function reports where the
segment meets the triangle when it does, and leaves `*ratio` alone when it does not.  Missing for the
full claim: segments in the plane of the triangle, where the answer is wrong (`coplanar_missed` and
`coplanar_invented` below). -/
theorem intersect_partial (solve : Columns K → Point K → Point K) (hs : Regular solve)
    (pa pb pc pq : Point K)
    (h : determinant ![pa, pb, pc] ≠ 0 ∨
      determinant (fun j i => (![pa, pb, pc] : Columns K) j i - pq i) ≠ 0) (ratio : K) :
    (∃ r, MeetsAt pa pb pc pq r ∧ intersect solve pa pb pc pq ratio = r) ∨
      (¬ ∃ r, MeetsAt pa pb pc pq r) ∧ intersect solve pa pb pc pq ratio = ratio := by
  by_cases h0 : determinant ![pa, pb, pc] = 0
  · exact second_regular solve hs _ _ _ _ h0 (h.resolve_left (not_not_intro h0)) ratio
  · exact first_regular solve hs _ _ _ _ h0 ratio

/-- The point of intersection is unique in those cases, so the answer is determined. -/
theorem meetsAt_unique (pa pb pc pq : Point K)
    (h : determinant ![pa, pb, pc] ≠ 0 ∨
      determinant (fun j i => (![pa, pb, pc] : Columns K) j i - pq i) ≠ 0) (r s : K)
    (hr : MeetsAt pa pb pc pq r) (hs : MeetsAt pa pb pc pq s) : r = s := by
  obtain ⟨_, _, u, v, w, _, _, _, e1, e2⟩ := hr
  obtain ⟨_, _, u', v', w', _, _, _, f1, f2⟩ := hs
  by_contra ne
  have ne : r - s ≠ 0 := sub_ne_zero.2 ne
  -- the direction of the segment is a combination of the edges
  have d : ∀ i, (r - s) * pq i =
      (v - v') * (pb i - pa i) + (w - w') * (pc i - pa i) := by
    intro i
    linear_combination (e2 i) - f2 i + pa i * (e1 - f1)
  rcases h with h | h
  · have z : times ![pa, pb, pc] ![-r * (v - v' + (w - w')) - (r - s) * u, r * (v - v') - (r - s) * v,
        r * (w - w') - (r - s) * w] = times ![pa, pb, pc] ![0, 0, 0] := by
      funext i
      simp only [times, Matrix.cons_val_zero, Matrix.cons_val_one, Matrix.cons_val]
      linear_combination -r * d i + (r - s) * e2 i
    have z := times_inj _ h _ _ z
    have h0 := congrFun z 0
    have h1 := congrFun z 1
    have h2 := congrFun z 2
    simp only [Matrix.cons_val_zero, Matrix.cons_val_one, Matrix.cons_val] at h0 h1 h2
    exact ne (by linear_combination -h0 - h1 - h2 - (r - s) * e1)
  · have z : times (fun j i => (![pa, pb, pc] : Columns K) j i - pq i)
        ![(1 - r) * (v - v' + (w - w')) - (r - s) * u, -(1 - r) * (v - v') - (r - s) * v,
        -(1 - r) * (w - w') - (r - s) * w] =
        times (fun j i => (![pa, pb, pc] : Columns K) j i - pq i) ![0, 0, 0] := by
      funext i
      simp only [times, Matrix.cons_val_zero, Matrix.cons_val_one, Matrix.cons_val]
      linear_combination (1 - r) * d i + (r - s) * e2 i + (r - s) * pq i * e1
    have z := times_inj _ h _ _ z
    have h0 := congrFun z 0
    have h1 := congrFun z 1
    have h2 := congrFun z 2
    simp only [Matrix.cons_val_zero, Matrix.cons_val_one, Matrix.cons_val] at h0 h1 h2
    exact ne (by linear_combination -h0 - h1 - h2 - (r - s) * e1)

/-! ### The case that the code leaves open, intersect.hpp:24-25 -/

/-- What Eigen promises of `fullPivLu().solve`: a solution if there is one, whose free unknowns are
zero if the matrix is singular. -/
def Basic (solve : Columns K → Point K → Point K) : Prop :=
  ∀ m b, (∃ x, times m x = b) →
    times m (solve m b) = b ∧ (determinant m = 0 → ∃ i, solve m b i = 0)

private theorem all3 {P : Fin 3 → Prop} (h0 : P 0) (h1 : P 1) (h2 : P 2) : ∀ i, P i := by
  intro i
  fin_cases i
  exacts [h0, h1, h2]

/-- A segment through the triangle, in its plane: the code reports nothing. -/
theorem coplanar_missed (solve : Columns K → Point K → Point K) (hs : Basic solve) (ratio : K) :
    MeetsAt (K := K) ![1, -1, 0] ![1, 1, 0] ![2, 0, 0] ![3, 0, 0] (1 / 3) ∧
      intersect solve ![1, -1, 0] ![1, 1, 0] ![2, 0, 0] ![3, 0, 0] ratio = ratio := by
  constructor
  · refine ⟨by norm_num, by norm_num, 1 / 2, 1 / 2, 0, by norm_num, by norm_num, by norm_num,
      by norm_num, ?_⟩
    refine all3 ?_ ?_ ?_ <;> simp only [Matrix.cons_val_zero, Matrix.cons_val_one, Matrix.cons_val] <;> norm_num
  · set m : Columns K := fun j i => (![![1, -1, 0], ![1, 1, 0], ![2, 0, 0]] : Columns K) j i -
      (![3, 0, 0] : Point K) i with hm
    have dm : determinant m = 0 := by
      simp only [determinant, hm, Matrix.cons_val_zero, Matrix.cons_val_one, Matrix.cons_val]; norm_num
    have prep : prepare (K := K) ![1, -1, 0] ![1, 1, 0] ![2, 0, 0] ![3, 0, 0] = (m, false) := by
      have z : determinant (K := K) ![![1, -1, 0], ![1, 1, 0], ![2, 0, 0]] = 0 := by
        simp only [determinant, Matrix.cons_val_zero, Matrix.cons_val_one, Matrix.cons_val]; norm_num
      rw [prepare, if_pos z]
      exact if_pos dm
    have hl := (hs m ![3, 0, 0] ⟨![0, 0, -3], by
      refine funext (all3 ?_ ?_ ?_) <;> simp only [times, hm, Matrix.cons_val_zero, Matrix.cons_val_one, Matrix.cons_val] <;> norm_num⟩).1
    rw [intersect, prep]
    set l := solve m ![3, 0, 0]
    have h0 := congrFun hl 0
    simp only [times, hm, Matrix.cons_val_zero, Matrix.cons_val_one, Matrix.cons_val] at h0
    simp only [Bool.false_eq_true, if_false]
    rw [if_neg]
    rintro ⟨p0, p1, p2⟩
    linarith

/-- A segment that ends before it reaches the triangle, in its plane: the code reports a ratio. -/
theorem coplanar_invented (solve : Columns K → Point K → Point K) (hs : Basic solve) (ratio : K) :
    (¬ ∃ r, MeetsAt (K := K) ![5 / 4, -1 / 4, 0] ![5 / 4, 1 / 4, 0] ![3 / 2, 0, 0] ![1, 0, 0] r) ∧
      (intersect solve ![5 / 4, -1 / 4, 0] ![5 / 4, 1 / 4, 0] ![3 / 2, 0, 0] ![1, 0, 0] ratio = 1 / 2 ∨
       intersect solve ![5 / 4, -1 / 4, 0] ![5 / 4, 1 / 4, 0] ![3 / 2, 0, 0] ![1, 0, 0] ratio =
         1 / 4) := by
  constructor
  · rintro ⟨r, r0, r1, u, v, w, hu, hv, hw, s, e⟩
    have := e 0
    simp only [Matrix.cons_val_zero, Matrix.cons_val_one, Matrix.cons_val] at this
    linarith
  · set m : Columns K := fun j i =>
      (![![5 / 4, -1 / 4, 0], ![5 / 4, 1 / 4, 0], ![3 / 2, 0, 0]] : Columns K) j i -
      (![1, 0, 0] : Point K) i with hm
    have dm : determinant m = 0 := by
      simp only [determinant, hm, Matrix.cons_val_zero, Matrix.cons_val_one, Matrix.cons_val]; norm_num
    have prep : prepare (K := K) ![5 / 4, -1 / 4, 0] ![5 / 4, 1 / 4, 0] ![3 / 2, 0, 0] ![1, 0, 0] =
        (m, false) := by
      have z : determinant (K := K) ![![5 / 4, -1 / 4, 0], ![5 / 4, 1 / 4, 0], ![3 / 2, 0, 0]] = 0 := by
        simp only [determinant, Matrix.cons_val_zero, Matrix.cons_val_one, Matrix.cons_val]; norm_num
      rw [prepare, if_pos z]
      exact if_pos dm
    obtain ⟨hl, hz⟩ := hs m ![1, 0, 0] ⟨![0, 0, 2], by
      refine funext (all3 ?_ ?_ ?_) <;> simp only [times, hm, Matrix.cons_val_zero, Matrix.cons_val_one, Matrix.cons_val] <;> norm_num⟩
    have hz := hz dm
    rw [intersect, prep]
    set l := solve m ![1, 0, 0]
    have h0 := congrFun hl 0
    have h1 := congrFun hl 1
    simp only [times, hm, Matrix.cons_val_zero, Matrix.cons_val_one, Matrix.cons_val] at h0 h1
    have e01 : l 0 = l 1 := by linarith
    have e2 : l 2 = 2 - l 0 := by linarith
    simp only [Bool.false_eq_true, if_false]
    have cases : (l 0 = 0 ∧ l 1 = 0 ∧ l 2 = 2) ∨ (l 0 = 2 ∧ l 1 = 2 ∧ l 2 = 0) := by
      obtain ⟨i, hi⟩ := hz
      fin_cases i
      · left
        have hi : l 0 = 0 := hi
        exact ⟨hi, by linarith, by linarith⟩
      · left
        have hi : l 1 = 0 := hi
        exact ⟨by linarith, hi, by linarith⟩
      · right
        have hi : l 2 = 0 := hi
        exact ⟨by linarith, by linarith, hi⟩
    rcases cases with ⟨a, b, c⟩ | ⟨a, b, c⟩
    · left
      rw [show solve m ![1, 0, 0] 0 = 0 from a, show solve m ![1, 0, 0] 1 = 0 from b,
        show solve m ![1, 0, 0] 2 = 2 from c]
      norm_num
    · right
      rw [show solve m ![1, 0, 0] 0 = 2 from a, show solve m ![1, 0, 0] 1 = 2 from b,
        show solve m ![1, 0, 0] 2 = 0 from c]
      norm_num

/-! ### Examples -/

/-- The hypotheses are met: a vertical segment through a horizontal triangle. -/
example : determinant (K := ℚ) ![![1, 0, 1], ![-1, 1, 1], ![-1, -1, 1]] ≠ 0 ∧
    MeetsAt (K := ℚ) ![1, 0, 1] ![-1, 1, 1] ![-1, -1, 1] ![0, 0, 2] (1 / 2) := by
  refine ⟨by simp only [determinant, Matrix.cons_val_zero, Matrix.cons_val_one, Matrix.cons_val]; norm_num, by norm_num, by norm_num, 1 / 2, 1 / 4, 1 / 4, by norm_num,
    by norm_num, by norm_num, by norm_num, ?_⟩
  refine all3 ?_ ?_ ?_ <;> simp only [Matrix.cons_val_zero, Matrix.cons_val_one, Matrix.cons_val] <;> norm_num

/-- Starting in the plane of the triangle. -/
example : determinant (K := ℚ) ![![1, 0, 0], ![-1, 1, 0], ![-1, -1, 0]] = 0 ∧
    determinant (K := ℚ) (fun j i =>
      (![![1, 0, 0], ![-1, 1, 0], ![-1, -1, 0]] : Columns ℚ) j i - (![0, 0, 2] : Point ℚ) i) ≠ 0 := by
  simp only [determinant, Matrix.cons_val_zero, Matrix.cons_val_one, Matrix.cons_val]
  norm_num

/-- There is a solver as assumed in the positive half: Cramer's rule on regular systems. -/
example : ∃ solve : Columns ℚ → Point ℚ → Point ℚ, Regular solve := by
  refine ⟨fun m b => ![determinant ![b, m 1, m 2] / determinant m,
    determinant ![m 0, b, m 2] / determinant m, determinant ![m 0, m 1, b] / determinant m], ?_⟩
  intro m b h
  have key : ∀ i, determinant ![b, m 1, m 2] * m 0 i + determinant ![m 0, b, m 2] * m 1 i +
      determinant ![m 0, m 1, b] * m 2 i = determinant m * b i := by
    refine all3 ?_ ?_ ?_ <;>
      simp only [determinant, Matrix.cons_val_zero, Matrix.cons_val_one, Matrix.cons_val] <;> ring
  funext i
  have := key i
  simp only [times, Matrix.cons_val_zero, Matrix.cons_val_one, Matrix.cons_val]
  field_simp
  linear_combination this

/-- There is a solver as assumed in the negative half: with a nonzero kernel vector, one unknown of
any solution can be made zero. -/
example : ∃ solve : Columns ℚ → Point ℚ → Point ℚ, Basic solve := by
  classical
  have key : ∀ (m : Columns ℚ) (b : Point ℚ), ∃ y, (∃ x, times m x = b) →
      times m y = b ∧ (determinant m = 0 → ∃ i, y i = 0) := by
    intro m b
    by_cases hx : ∃ x, times m x = b
    · obtain ⟨x, hx⟩ := hx
      by_cases hd : determinant m = 0
      · have d : Matrix.det (Matrix.of fun i j => m j i) = 0 := by
          rw [Matrix.det_fin_three]
          simp only [Matrix.of_apply]
          simp only [determinant] at hd
          linear_combination hd
        obtain ⟨k, k0, hk⟩ := Matrix.exists_mulVec_eq_zero_iff.2 d
        obtain ⟨i, hi⟩ := Function.ne_iff.1 k0
        have hi : k i ≠ 0 := hi
        refine ⟨fun j => x j - x i / k i * k j, fun _ => ⟨?_, fun _ => ⟨i, ?_⟩⟩⟩
        · funext r
          have h1 := congrFun hx r
          have h2 := congrFun hk r
          simp only [Matrix.mulVec, dotProduct, Fin.sum_univ_three, Matrix.of_apply,
            Pi.zero_apply] at h2
          simp only [times] at h1 ⊢
          linear_combination h1 - x i / k i * h2
        · field_simp; ring
      · exact ⟨x, fun _ => ⟨hx, fun h => absurd h hd⟩⟩
    · exact ⟨0, fun h => absurd h hx⟩
  choose solve h using key
  exact ⟨solve, h⟩

end MiniCFD.Intersect
