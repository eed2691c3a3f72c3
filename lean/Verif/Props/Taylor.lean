import Verif.Lemmas.Taylor

/-!
# Taylor bases (C34)
-/

namespace MiniCFD.Taylor
open MiniCFD.Spec.Taylor

/-! ### The functions are the monomials, each once -/

theorem value33_monomials (x y z : ℝ) (i : Fin 20) :
    value33 x y z i = x ^ (expo3 i).1 * y ^ (expo3 i).2.1 * z ^ (expo3 i).2.2 := by
  fin_cases i <;> simp [value33, expo3, -mul_eq_mul_left_iff, -mul_eq_mul_right_iff] <;> ring

theorem value32_monomials (x y z : ℝ) (i : Fin 10) :
    value32 x y z i = value33 x y z (i.castLE (by omega)) := by
  fin_cases i <;> rfl

theorem value31_monomials (x y z : ℝ) (i : Fin 4) :
    value31 x y z i = value33 x y z (i.castLE (by omega)) := by
  fin_cases i <;> rfl

theorem value30_monomials (x y z : ℝ) (i : Fin 1) :
    value30 x y z i = value33 x y z (i.castLE (by omega)) := by
  fin_cases i; rfl

theorem value23_monomials (x y : ℝ) (i : Fin 10) :
    value23 x y i = x ^ (expo2 i).1 * y ^ (expo2 i).2 := by
  fin_cases i <;> simp [value23, expo2, -mul_eq_mul_left_iff, -mul_eq_mul_right_iff] <;> ring

theorem value22_monomials (x y : ℝ) (i : Fin 6) :
    value22 x y i = value23 x y (i.castLE (by omega)) := by
  fin_cases i <;> rfl

theorem value21_monomials (x y : ℝ) (i : Fin 3) :
    value21 x y i = value23 x y (i.castLE (by omega)) := by
  fin_cases i <;> rfl

/-- Every monomial of total degree at most three occurs, exactly once, in the order of degree. -/
theorem expo3_complete (e : Expo) : e.1 + e.2.1 + e.2.2 ≤ 3 ↔ ∃! i, expo3 i = e := by
  constructor
  · rintro h
    obtain ⟨a, b, c⟩ := e
    have ha : a < 4 := by dsimp only at h; omega
    have hb : b < 4 := by dsimp only at h; omega
    have hc : c < 4 := by dsimp only at h; omega
    dsimp only at h
    have all : ∀ a b c : Fin 4, a.val + b.val + c.val ≤ 3 →
        ∃ i, expo3 i = (a.val, b.val, c.val) ∧
          ∀ j, expo3 j = (a.val, b.val, c.val) → j = i := by decide +kernel
    exact all ⟨a, ha⟩ ⟨b, hb⟩ ⟨c, hc⟩ h
  · rintro ⟨i, rfl, _⟩
    revert i
    decide

theorem expo3_degree (i : Fin 20) :
    ((expo3 i).1 + (expo3 i).2.1 + (expo3 i).2.2 ≤ 0 ↔ i.val < 1) ∧
    ((expo3 i).1 + (expo3 i).2.1 + (expo3 i).2.2 ≤ 1 ↔ i.val < 4) ∧
    ((expo3 i).1 + (expo3 i).2.1 + (expo3 i).2.2 ≤ 2 ↔ i.val < 10) := by
  revert i; decide

theorem expo2_complete (e : Nat × Nat) : e.1 + e.2 ≤ 3 ↔ ∃! i, expo2 i = e := by
  constructor
  · rintro h
    obtain ⟨a, b⟩ := e
    have ha : a < 4 := by dsimp only at h; omega
    have hb : b < 4 := by dsimp only at h; omega
    dsimp only at h
    have all : ∀ a < 4, ∀ b < 4, a + b ≤ 3 →
        ∃ i, expo2 i = (a, b) ∧ ∀ j, expo2 j = (a, b) → j = i := by decide
    exact all a ha b hb h
  · rintro ⟨i, rfl, _⟩
    revert i
    decide

/-! ### Gradients -/

/-- The unit multi-index of a coordinate. -/
def unit : Fin 3 → Expo := ![(1, 0, 0), (0, 1, 0), (0, 0, 1)]

theorem grad33_correct (c : Fin 20 → ℝ) (x y z : ℝ) (d : Fin 3) :
    grad33 c x y z d = mixed (unit d) (fun x y z => ∑ i, c i * value33 x y z i) x y z := by
  simp only [value33_monomials]
  refine Eq.trans ?_ (mixed_poly expo3 c (unit d) x y z).symm
  fin_cases d <;> simp [grad33, unit, expo3, Fin.sum_univ_succ, Fin.succ] <;> ring

theorem grad32_correct (c : Fin 10 → ℝ) (x y z : ℝ) (d : Fin 3) :
    grad32 c x y z d = mixed (unit d) (fun x y z => ∑ i, c i * value32 x y z i) x y z := by
  simp only [value32_monomials, value33_monomials]
  refine Eq.trans ?_ (mixed_poly (fun i : Fin 10 => expo3 (i.castLE (by omega))) c (unit d) x y z).symm
  fin_cases d <;> simp [grad32, unit, expo3, Fin.sum_univ_succ, Fin.succ] <;> ring

theorem grad31_correct (c : Fin 4 → ℝ) (x y z : ℝ) (d : Fin 3) :
    grad31 c x y z d = mixed (unit d) (fun x y z => ∑ i, c i * value31 x y z i) x y z := by
  simp only [value31_monomials, value33_monomials]
  refine Eq.trans ?_ (mixed_poly (fun i : Fin 4 => expo3 (i.castLE (by omega))) c (unit d) x y z).symm
  fin_cases d <;> simp [grad31, unit, expo3, Fin.sum_univ_succ, Fin.succ]

theorem grad30_correct (c : Fin 1 → ℝ) (x y z : ℝ) (d : Fin 3) :
    grad30 c x y z d = mixed (unit d) (fun x y z => ∑ i, c i * value30 x y z i) x y z := by
  simp only [value30_monomials, value33_monomials]
  refine Eq.trans ?_ (mixed_poly (fun i : Fin 1 => expo3 (i.castLE (by omega))) c (unit d) x y z).symm
  fin_cases d <;> simp [grad30, unit, expo3]

/-! ### All partial derivatives -/

theorem pdv32_correct (c : Fin 10 → ℝ) (x y z : ℝ) (i : Fin 10) (hi : i ≠ 0) :
    pdv32 c x y z i = mixed (expo3 (i.castLE (by omega)))
      (fun x y z => ∑ i, c i * value32 x y z i) x y z := by
  simp only [value32_monomials, value33_monomials]
  refine Eq.trans ?_ (mixed_poly (fun i : Fin 10 => expo3 (i.castLE (by omega))) c _ x y z).symm
  fin_cases i <;> first | exact absurd rfl hi |
    (simp [pdv32, run, exec, put, expo3, Fin.sum_univ_succ, Fin.succ]; try ring)

theorem pdv31_correct (c : Fin 4 → ℝ) (x y z : ℝ) (i : Fin 4) (hi : i ≠ 0) :
    pdv31 c x y z i = mixed (expo3 (i.castLE (by omega)))
      (fun x y z => ∑ i, c i * value31 x y z i) x y z := by
  simp only [value31_monomials, value33_monomials]
  refine Eq.trans ?_ (mixed_poly (fun i : Fin 4 => expo3 (i.castLE (by omega))) c _ x y z).symm
  fin_cases i <;> first | exact absurd rfl hi |
    (simp [pdv31, run, exec, put, expo3, Fin.sum_univ_succ, Fin.succ]; try ring)

/-- Degree three: every entry except the constant one and `YY` is the derivative it stands for.
Full claim (fails, see `pdv33_yy_wrong`): the same for `YY`. -/
theorem pdv33_correct_partial (c : Fin 20 → ℝ) (x y z : ℝ) (i : Fin 20) (hi : i ≠ 0) (h7 : i ≠ 7) :
    pdv33 c x y z i = mixed (expo3 i) (fun x y z => ∑ i, c i * value33 x y z i) x y z := by
  simp only [value33_monomials]
  refine Eq.trans ?_ (mixed_poly expo3 c _ x y z).symm
  fin_cases i
  · exact absurd rfl hi
  · exact pdv33_case1 c x y z
  · exact pdv33_case2 c x y z
  · exact pdv33_case3 c x y z
  · exact pdv33_case4 c x y z
  · exact pdv33_case5 c x y z
  · exact pdv33_case6 c x y z
  · exact absurd rfl h7
  · exact pdv33_case8 c x y z
  · exact pdv33_case9 c x y z
  · exact pdv33_case10 c x y z
  · exact pdv33_case11 c x y z
  · exact pdv33_case12 c x y z
  · exact pdv33_case13 c x y z
  · exact pdv33_case14 c x y z
  · exact pdv33_case15 c x y z
  · exact pdv33_case16 c x y z
  · exact pdv33_case17 c x y z
  · exact pdv33_case18 c x y z
  · exact pdv33_case19 c x y z

/-- What the entry `YY` holds: half of `∂²/∂y²` plus `∂²/∂x²`. -/
theorem pdv33_yy (c : Fin 20 → ℝ) (x y z : ℝ) :
    pdv33 c x y z 7 =
      mixed (0, 2, 0) (fun x y z => ∑ i, c i * value33 x y z i) x y z / 2 +
      mixed (2, 0, 0) (fun x y z => ∑ i, c i * value33 x y z i) x y z := by
  simp only [value33_monomials]
  have h1 := mixed_poly expo3 c (0, 2, 0) x y z
  have h2 := mixed_poly expo3 c (2, 0, 0) x y z
  unfold poly at h1 h2
  rw [h1, h2, pdv33_case7]
  simp [expo3, Fin.sum_univ_succ, Fin.succ]
  ring

/-- The entry `YY` is right exactly when `∂²/∂x²` is half of `∂²/∂y²`. -/
theorem pdv33_yy_iff (c : Fin 20 → ℝ) (x y z : ℝ) :
    pdv33 c x y z 7 = mixed (0, 2, 0) (fun x y z => ∑ i, c i * value33 x y z i) x y z ↔
      mixed (2, 0, 0) (fun x y z => ∑ i, c i * value33 x y z i) x y z =
        mixed (0, 2, 0) (fun x y z => ∑ i, c i * value33 x y z i) x y z / 2 := by
  rw [pdv33_yy]
  constructor <;> intro h <;> linarith

/-- The coefficients of the polynomial `x²`. -/
def xSquared : Fin 20 → ℝ := fun i => if i = 4 then 1 else 0

/-- The claim fails for `YY`: for the polynomial `x²` the function returns `∂²/∂y² = 2`. -/
theorem pdv33_yy_wrong :
    ¬ ∀ (c : Fin 20 → ℝ) (x y z : ℝ) (i : Fin 20), i ≠ 0 → pdv33 c x y z i =
      mixed (expo3 i) (fun x y z => ∑ i, c i * value33 x y z i) x y z := by
  intro h
  have h7 := h xSquared 0 0 0 7 (by decide)
  simp only [value33_monomials] at h7
  have hm := mixed_poly expo3 xSquared (expo3 7) 0 0 0
  unfold poly at hm
  rw [hm, pdv33_case7] at h7
  simp [expo3, Fin.sum_univ_succ, Fin.succ, xSquared] at h7

/-- A build with assertions aborts for every polynomial with a `z³` term. -/
theorem pdv33_debug_aborts (c : Fin 20 → ℝ) (x y z : ℝ) (h : c 19 ≠ 0) :
    pdv33Debug c x y z = none := by
  unfold pdv33Debug
  refine if_neg ?_
  rintro ⟨_, e⟩
  rw [pdv33_explicit19] at e
  exact h (by linarith)

/-- The entry of the constant monomial is zero. -/
theorem pdv33_const (c : Fin 20 → ℝ) (x y z : ℝ) : pdv33 c x y z 0 = 0 := pdv33_explicit0 c x y z

theorem pdv32_const (c : Fin 10 → ℝ) (x y z : ℝ) : pdv32 c x y z 0 = 0 := by
  simp [pdv32, run, exec, put]

theorem pdv31_const (c : Fin 4 → ℝ) (x y z : ℝ) : pdv31 c x y z 0 = 0 := by
  simp [pdv31, run, exec, put]

/-- The gradient is the part of order one of the vector of all derivatives. -/
theorem grad33_eq_pdv (c : Fin 20 → ℝ) (x y z : ℝ) (d : Fin 3) :
    grad33 c x y z d = pdv33 c x y z (d.succ.castLE (by omega)) := by
  rw [grad33_correct, pdv33_correct_partial c x y z (d.succ.castLE (by omega))
    (by revert d; decide) (by revert d; decide)]
  congr 1
  fin_cases d <;> rfl

theorem grad32_eq_pdv (c : Fin 10 → ℝ) (x y z : ℝ) (d : Fin 3) :
    grad32 c x y z d = pdv32 c x y z (d.succ.castLE (by omega)) := by
  rw [grad32_correct, pdv32_correct c x y z (d.succ.castLE (by omega)) (by revert d; decide)]
  congr 1
  fin_cases d <;> rfl

/-! ### Examples -/

/-- The coefficients of `x y z + 5 y²`. -/
def sample : Fin 20 → ℝ := fun i => if i = 14 then 1 else if i = 7 then 5 else 0

example : grad33 sample 2 3 5 1 = 40 := by
  simp [grad33, sample]; norm_num

example : pdv33 sample 2 3 5 5 = 5 := by
  rw [pdv33_explicit5]; simp [sample]

end MiniCFD.Taylor
