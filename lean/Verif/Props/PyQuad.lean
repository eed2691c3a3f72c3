import Verif.Lemmas.PyQuad
import Verif.Props.Gauss
import Mathlib.Analysis.Calculus.Deriv.Add
import Mathlib.Analysis.Calculus.Deriv.Mul
import Mathlib.Algebra.Order.BigOperators.Ring.Finset
import Mathlib.Analysis.InnerProductSpace.Basic
import Mathlib.Tactic.FinCases

/-! # C93: coordinates and integrators of the Python code -/

namespace MiniCFD.PyQuad
open MiniCFD.Spec.PyQuad Polynomial
open MiniCFD.Gauss (mom sqrt7_lt)
open MiniCFD.Spec.Gauss (ExactTo NearTo)

/-! ### Coordinates -/

/-- Local and global coordinates are inverse to each other; the ends of `[-1, 1]` are mapped to the
ends of the interval, the centre to the centre; the Jacobian is the derivative of the map. -/
theorem coordinate_spec (c : Coordinate) (h : c.xLeft < c.xRight) :
    (∀ x, c.globalToLocal (c.localToGlobal x) = x) ∧ (∀ x, c.localToGlobal (c.globalToLocal x) = x) ∧
    c.localToGlobal (-1) = c.xLeft ∧ c.localToGlobal 1 = c.xRight ∧ c.localToGlobal 0 = c.xCenter ∧
    c.length = c.xRight - c.xLeft ∧
    (∀ x, HasDerivAt c.localToGlobal (c.localToJacobian x) x) ∧
    (∀ x, c.globalToJacobian (c.localToGlobal x) = c.localToJacobian x) ∧
    ∀ x, 0 < c.localToJacobian x := by
  obtain ⟨h1, h2, h3, h4, h5, h6⟩ := c.eq_linear
  have hj : (c.xRight - c.xLeft) / 2 ≠ 0 := by
    have : 0 < c.xRight - c.xLeft := by linarith
    positivity
  refine ⟨fun x => ?_, fun x => ?_, ?_, ?_, ?_, h1, fun x => ?_, fun x => ?_, fun x => ?_⟩
  · rw [h6, h5, add_sub_cancel_left, mul_div_assoc, div_self hj, mul_one]
  · rw [h5, h6, div_mul_cancel₀ _ hj]; ring
  · rw [h5]; ring
  · rw [h5]; ring
  · rw [h5, h2]; ring
  · rw [h3, show c.localToGlobal = fun x => (c.xLeft + c.xRight) / 2 + x * ((c.xRight - c.xLeft) / 2)
      from funext h5]
    simpa using ((hasDerivAt_id x).mul_const ((c.xRight - c.xLeft) / 2)).const_add
      ((c.xLeft + c.xRight) / 2)
  · rw [h4, h3]
  · rw [h3]; linarith

/-- A shifted coordinate is the coordinate of the shifted interval. -/
theorem shifted_spec (c : Coordinate) (s : ℝ) (x : ℝ) :
    (Coordinate.shifted c s).localToGlobal x =
      (Coordinate.linear (c.xLeft + s) (c.xRight + s)).localToGlobal x ∧
    (Coordinate.shifted c s).globalToLocal x =
      (Coordinate.linear (c.xLeft + s) (c.xRight + s)).globalToLocal x ∧
    (Coordinate.shifted c s).localToJacobian x =
      (Coordinate.linear (c.xLeft + s) (c.xRight + s)).localToJacobian x := by
  obtain ⟨_, _, h3, _, h5, h6⟩ := (Coordinate.shifted c s).eq_linear
  obtain ⟨_, _, g3, _, g5, g6⟩ := (Coordinate.linear (c.xLeft + s) (c.xRight + s)).eq_linear
  rw [h3, h5, h6, g3, g5, g6]
  exact ⟨rfl, rfl, rfl⟩

/-! ### Exactness on an element -/

/-- An element integrates every polynomial that its rule integrates on `[-1, 1]`. -/
theorem integrate_exact {m d : ℕ} {r : Rule m} (hr : ExactTo r.apply d) (c : Coordinate) :
    ExactOn (r.integrator c).integrate c.xLeft c.xRight d := by
  intro p hp
  obtain ⟨_, _, h3, _, h5, _⟩ := c.eq_linear
  set a := c.xLeft
  set b := c.xRight
  have e : (r.integrator c).integrate (fun x => p.eval x) =
      (b - a) / 2 * r.apply (fun x => (p.comp (C ((b - a) / 2) * X + C ((a + b) / 2))).eval x) := by
    rw [Integrator.integrate_eq, Rule.apply, Finset.mul_sum]
    refine Finset.sum_congr rfl fun i _ => ?_
    simp only [Rule.integrator, h3, h5, smul_eq_mul, eval_comp, eval_add, eval_mul, eval_C, eval_X]
    rw [show (a + b) / 2 + r.x i * ((b - a) / 2) = (b - a) / 2 * r.x i + (a + b) / 2 by ring]
    ring
  have deg : (p.comp (C ((b - a) / 2) * X + C ((a + b) / 2))).natDegree ≤ d :=
    natDegree_comp_le.trans ((Nat.mul_le_mul hp (natDegree_linear_le)).trans (by simp))
  rw [e, hr _ deg]
  simp only [eval_comp, eval_add, eval_mul, eval_C, eval_X]
  rw [intervalIntegral.mul_integral_comp_mul_add (f := fun x => p.eval x)]
  congr 1 <;> ring

/-- The average of such a polynomial is its mean value; that of a constant is the constant. -/
theorem average_exact {m d : ℕ} {r : Rule m} (hr : ExactTo r.apply d) (c : Coordinate)
    (h : c.xLeft < c.xRight) (p : ℝ[X]) (hp : p.natDegree ≤ d) :
    (r.integrator c).average (fun x => p.eval x) * (c.xRight - c.xLeft) =
      ∫ x in c.xLeft..c.xRight, p.eval x := by
  rw [← integrate_exact hr c p hp, Integrator.average, smul_eq_mul]
  have : (r.integrator c).coordinate.length = c.xRight - c.xLeft := c.eq_linear.1
  rw [this, mul_comm, ← mul_assoc, mul_inv_cancel₀ (by linarith), one_mul]

theorem average_const {m d : ℕ} {r : Rule m} (hr : ExactTo r.apply d) (c : Coordinate)
    (h : c.xLeft < c.xRight) {V : Type*} [AddCommGroup V] [Module ℝ V] (v : V) :
    (r.integrator c).average (fun _ => v) = v := by
  have hw : ∑ i, (r.integrator c).weights i = c.xRight - c.xLeft := by
    have := integrate_exact hr c 1 (by simp)
    rw [Integrator.integrate_eq] at this
    simpa using this
  rw [Integrator.average, Integrator.integrate_eq, ← Finset.sum_smul, hw, smul_smul]
  have : (r.integrator c).coordinate.length = c.xRight - c.xLeft := c.eq_linear.1
  rw [this, inv_mul_cancel₀ (by linarith), one_smul]

/-- An integrator moved along the axis gives the integral of the moved function. -/
theorem shifted_integrate {m : ℕ} (r : Rule m) (c : Coordinate) (s : ℝ) {V : Type*} [AddCommGroup V]
    [Module ℝ V] (f : ℝ → V) :
    (r.integrator (.shifted c s)).integrate (fun x => f (x - s)) = (r.integrator c).integrate f := by
  simp only [Integrator.integrate_eq, Rule.integrator, Coordinate.localToGlobal,
    Coordinate.localToJacobian, add_sub_cancel_right]

/-! ### Norms -/

/-- With positive weights the norms are norms on the values at the points: inequality of Cauchy and
Schwarz and comparison of the two norms with the length of the element. -/
theorem norms {m : ℕ} {r : Rule m} (hw : ∀ i, 0 < r.w i) (c : Coordinate) (h : c.xLeft < c.xRight)
    (f g : ℝ → ℝ) :
    0 ≤ (r.integrator c).norm1 f ∧
    |(r.integrator c).integrate f| ≤ (r.integrator c).norm1 f ∧
    |(r.integrator c).innerProduct f g| ≤ (r.integrator c).norm2 f * (r.integrator c).norm2 g ∧
    (r.integrator c).norm2 f ^ 2 = (r.integrator c).innerProduct f f ∧
    ((r.integrator c).norm2 f = 0 ↔ ∀ i, f ((r.integrator c).points i) = 0) := by
  have hW : ∀ i, 0 < (r.integrator c).weights i := fun i =>
    mul_pos (hw i) ((coordinate_spec c h).2.2.2.2.2.2.2.2 _)
  generalize r.integrator c = q at hW
  have hsq : ∀ f : ℝ → ℝ, q.integrate (fun x => |f x| ^ 2) = ∑ i, q.weights i * f (q.points i) ^ 2 := by
    intro f
    rw [Integrator.integrate_eq]
    simp [sq_abs]
  have hnn : ∀ f : ℝ → ℝ, 0 ≤ ∑ i, q.weights i * f (q.points i) ^ 2 := fun f =>
    Finset.sum_nonneg fun i _ => mul_nonneg (hW i).le (sq_nonneg _)
  refine ⟨?_, ?_, ?_, ?_, ?_⟩
  · rw [Integrator.norm1, Integrator.integrate_eq]
    exact Finset.sum_nonneg fun i _ => mul_nonneg (hW i).le (abs_nonneg _)
  · rw [Integrator.norm1, Integrator.integrate_eq, Integrator.integrate_eq]
    refine (Finset.abs_sum_le_sum_abs _ _).trans (le_of_eq (Finset.sum_congr rfl fun i _ => ?_))
    rw [smul_eq_mul, smul_eq_mul, abs_mul, abs_of_pos (hW i)]
  · rw [Integrator.innerProduct, Integrator.norm2, Integrator.norm2, hsq, hsq, Integrator.integrate_eq,
      ← Real.sqrt_mul (hnn f)]
    refine Real.abs_le_sqrt ?_
    have := Finset.sum_mul_sq_le_sq_mul_sq Finset.univ
      (fun i => √(q.weights i) * f (q.points i)) (fun i => √(q.weights i) * g (q.points i))
    have e1 : ∑ i, q.weights i • (f (q.points i) * g (q.points i)) =
        ∑ i, √(q.weights i) * f (q.points i) * (√(q.weights i) * g (q.points i)) := by
      refine Finset.sum_congr rfl fun i _ => ?_
      have e := Real.mul_self_sqrt (hW i).le
      rw [smul_eq_mul]
      linear_combination (-(f (q.points i) * g (q.points i))) * e
    have e2 : ∀ f : ℝ → ℝ, ∑ i, (√(q.weights i) * f (q.points i)) ^ 2 =
        ∑ i, q.weights i * f (q.points i) ^ 2 := fun f =>
      Finset.sum_congr rfl fun i _ => by rw [mul_pow, Real.sq_sqrt (hW i).le]
    rw [e2, e2] at this
    rw [e1]
    exact this
  · rw [Integrator.norm2, Real.sq_sqrt (by rw [hsq]; exact hnn f), hsq, Integrator.innerProduct,
      Integrator.integrate_eq]
    exact Finset.sum_congr rfl fun i _ => by rw [smul_eq_mul]; ring
  · rw [Integrator.norm2, Real.sqrt_eq_zero (by rw [hsq]; exact hnn f), hsq,
      Finset.sum_eq_zero_iff_of_nonneg fun i _ => mul_nonneg (hW i).le (sq_nonneg _)]
    simp only [Finset.mem_univ, forall_const]
    refine forall_congr' fun i => ?_
    rw [mul_eq_zero, or_iff_right (hW i).ne', sq_eq_zero_iff]

/-- `norm_infty` is the largest modulus on the equidistant points from one end to the other. -/
theorem norm_infty {m : ℕ} (r : Rule m) (c : Coordinate) (f : ℝ → ℝ) (n : ℕ) :
    (∀ i ≤ n, |f (c.xLeft + i * ((c.xRight - c.xLeft) / n))| ≤ (r.integrator c).normInfty f n) ∧
    ∃ i ≤ n, (r.integrator c).normInfty f n = |f (c.xLeft + i * ((c.xRight - c.xLeft) / n))| := by
  have key : ∀ (g : ℕ → ℝ) (k : ℕ),
      (∀ i ≤ k, g i ≤ (List.range k).foldl (fun v i => max v (g (i + 1))) (g 0)) ∧
      ∃ i ≤ k, (List.range k).foldl (fun v i => max v (g (i + 1))) (g 0) = g i := by
    intro g k
    induction k with
    | zero => exact ⟨fun i hi => by rw [Nat.le_zero.1 hi]; simp, 0, le_refl _, by simp⟩
    | succ k ih =>
      rw [List.range_succ, List.foldl_append, List.foldl_cons, List.foldl_nil]
      obtain ⟨h1, i, hi, h2⟩ := ih
      constructor
      · intro j hj
        rcases Nat.lt_or_ge k j with h | h
        · obtain rfl : j = k + 1 := by omega
          exact le_max_right _ _
        · exact le_trans (h1 j h) (le_max_left _ _)
      · rcases max_choice ((List.range k).foldl (fun v i => max v (g (i + 1))) (g 0)) (g (k + 1)) with h | h
        · exact ⟨i, by omega, h.trans h2⟩
        · exact ⟨k + 1, le_refl _, h⟩
  exact key (fun i => |f (c.xLeft + i * ((c.xRight - c.xLeft) / n))|) n

/-! ### Lobatto -/

theorem apply4 (x0 x1 x2 x3 w0 w1 w2 w3 : ℝ) (f : ℝ → ℝ) :
    Rule.apply (m := 3) ⟨![x0, x1, x2, x3], ![w0, w1, w2, w3]⟩ f =
      w0 * f x0 + w1 * f x1 + w2 * f x2 + w3 * f x3 := Fin.sum_univ_four _

theorem apply5 (x0 x1 x2 x3 x4 w0 w1 w2 w3 w4 : ℝ) (f : ℝ → ℝ) :
    Rule.apply (m := 4) ⟨![x0, x1, x2, x3, x4], ![w0, w1, w2, w3, w4]⟩ f =
      w0 * f x0 + w1 * f x1 + w2 * f x2 + w3 * f x3 + w4 * f x4 := Fin.sum_univ_five _

theorem apply6 (x0 x1 x2 x3 x4 x5 w0 w1 w2 w3 w4 w5 : ℝ) (f : ℝ → ℝ) :
    Rule.apply (m := 5) ⟨![x0, x1, x2, x3, x4, x5], ![w0, w1, w2, w3, w4, w5]⟩ f =
      w0 * f x0 + w1 * f x1 + w2 * f x2 + w3 * f x3 + w4 * f x4 + w5 * f x5 := Fin.sum_univ_six _

/-- Two to six points: exact to the degree of Lobatto's rules. -/
theorem lobatto_exact {m : ℕ} (h1 : 1 ≤ m) (h5 : m ≤ 5) :
    ∃ r, lobatto m = some r ∧ ExactTo r.apply (2 * m - 1) := by
  obtain rfl | rfl | rfl | rfl | rfl : m = 1 ∨ m = 2 ∨ m = 3 ∨ m = 4 ∨ m = 5 := by omega
  · refine ⟨_, rfl, Rule.exact_of_moments fun k hk => ?_⟩
    simp only [Rule.apply, Fin.sum_univ_succ, Fin.sum_univ_zero, mom]
    interval_cases k <;> simp
  · refine ⟨_, rfl, Rule.exact_of_moments fun k hk => ?_⟩
    simp only [Rule.apply, Fin.sum_univ_succ, Fin.sum_univ_zero, mom]
    interval_cases k <;> simp <;> norm_num
  · refine ⟨_, rfl, Rule.exact_of_moments fun k hk => ?_⟩
    have h : √(1 / 5 : ℝ) ^ 2 = 1 / 5 := Real.sq_sqrt (by norm_num)
    simp only [apply4, mom]
    generalize √(1 / 5 : ℝ) = s at *
    interval_cases k <;> norm_num <;> grind
  · refine ⟨_, rfl, Rule.exact_of_moments fun k hk => ?_⟩
    have h : √(21 : ℝ) ^ 2 = 21 := Real.sq_sqrt (by norm_num)
    simp only [apply5, mom]
    generalize √(21 : ℝ) = s at *
    interval_cases k <;> norm_num <;> grind
  · refine ⟨_, rfl, Rule.exact_of_moments fun k hk => ?_⟩
    have h : √(7 : ℝ) ^ 2 = 7 := Real.sq_sqrt (by norm_num)
    have h1 : √((7 + 2 * √7) / 21 : ℝ) ^ 2 = (7 + 2 * √7) / 21 := Real.sq_sqrt (by positivity)
    have h2 : √((7 - 2 * √7) / 21 : ℝ) ^ 2 = (7 - 2 * √7) / 21 :=
      Real.sq_sqrt (by have := sqrt7_lt; linarith)
    simp only [apply6, mom]
    generalize √((7 + 2 * √7) / 21 : ℝ) = x at *
    generalize √((7 - 2 * √7) / 21 : ℝ) = y at *
    generalize √(7 : ℝ) = s at *
    interval_cases k <;> norm_num <;> grind

/-- Seven to ten points: up to the digits of the tables. -/
theorem lobatto_near {m : ℕ} (h6 : 6 ≤ m) (h9 : m ≤ 9) :
    ∃ r, lobatto m = some r ∧ NearTo (fun _ => 1) r.apply (2 * m - 1) ((6 / 10 ^ 16 : ℚ) : ℝ) := by
  obtain rfl | rfl | rfl | rfl : m = 6 ∨ m = 7 ∨ m = 8 ∨ m = 9 := by omega
  · exact ⟨_, rfl, Table.near (by decide +kernel)⟩
  · exact ⟨_, rfl, Table.near (by decide +kernel)⟩
  · exact ⟨_, rfl, Table.near (by decide +kernel)⟩
  · exact ⟨_, rfl, Table.near (by decide +kernel)⟩

/-- Ends, symmetry, order and positivity in one predicate. -/
def Sound {m : ℕ} (r : Rule m) : Prop :=
  r.x 0 = -1 ∧ r.x (Fin.last m) = 1 ∧ (∀ i, r.x i.rev = -r.x i) ∧ (∀ i, r.w i.rev = r.w i) ∧
  (∀ i, 0 < r.w i) ∧ Inside (-1) 1 r.x

theorem inside_of_steps {m : ℕ} {x : Fin (m + 1) → ℝ} (h0 : x 0 = -1) (h1 : x (Fin.last m) = 1)
    (h : ∀ i : Fin m, x i.castSucc < x i.succ) : Inside (-1) 1 x := by
  have hm := Fin.strictMono_iff_lt_succ.2 h
  exact ⟨hm, fun i => ⟨h0 ▸ hm.monotone (Fin.zero_le _), h1 ▸ hm.monotone (Fin.le_last _)⟩⟩

theorem Table.sound {m : ℕ} {t : Table m} (h0 : t.x 0 = -1) (h1 : t.x (Fin.last m) = 1)
    (hx : ∀ i, t.x i.rev = -t.x i) (hw : ∀ i, t.w i.rev = t.w i) (hp : ∀ i, 0 < t.w i)
    (h : ∀ i : Fin m, t.x i.castSucc < t.x i.succ) : Sound t.rule := by
  have e0 : t.rule.x 0 = -1 := by simp [Table.rule, h0]
  have e1 : t.rule.x (Fin.last m) = 1 := by simp [Table.rule, h1]
  refine ⟨e0, e1, fun i => ?_, fun i => ?_, fun i => ?_, inside_of_steps e0 e1 fun i => ?_⟩
  · simp [Table.rule, hx i]
  · simp [Table.rule, hw i]
  · exact Rat.cast_pos.2 (hp i)
  · exact Rat.cast_lt.2 (h i)

/-- All rules start and end at the ends, are symmetric, have increasing points and positive weights. -/
theorem lobatto_sound {m : ℕ} {r : Rule m} (h : lobatto m = some r) : Sound r := by
  have hm : 1 ≤ m ∧ m ≤ 9 := by
    unfold lobatto at h
    split at h <;> simp_all
  obtain rfl | rfl | rfl | rfl | rfl | rfl | rfl | rfl | rfl : m = 1 ∨ m = 2 ∨ m = 3 ∨ m = 4 ∨ m = 5 ∨
    m = 6 ∨ m = 7 ∨ m = 8 ∨ m = 9 := by omega
  · cases h
    refine ⟨rfl, rfl, ?_, ?_, ?_, inside_of_steps rfl rfl ?_⟩
    · intro i; fin_cases i <;> norm_num [Fin.rev]
    · intro i; fin_cases i <;> norm_num [Fin.rev]
    · intro i; fin_cases i <;> norm_num
    · intro i; fin_cases i
      · show (-1 : ℝ) < 1; norm_num
  · cases h
    refine ⟨rfl, rfl, ?_, ?_, ?_, inside_of_steps rfl rfl ?_⟩
    · intro i; fin_cases i <;> norm_num [Fin.rev]
    · intro i; fin_cases i <;> norm_num [Fin.rev]
    · intro i; fin_cases i <;> norm_num
    · intro i; fin_cases i
      · show (-1 : ℝ) < 0; norm_num
      · show (0 : ℝ) < 1; norm_num
  · have h0 : 0 < √(1 / 5 : ℝ) := by positivity
    have h1 : √(1 / 5 : ℝ) < 1 := by rw [Real.sqrt_lt' (by norm_num)]; norm_num
    unfold lobatto at h
    generalize √(1 / 5 : ℝ) = s at *
    cases h
    refine ⟨rfl, rfl, ?_, ?_, ?_, inside_of_steps rfl rfl ?_⟩
    · intro i; fin_cases i <;> norm_num [Fin.rev]
    · intro i; fin_cases i <;> norm_num [Fin.rev]
    · intro i; fin_cases i <;> norm_num
    · intro i; fin_cases i
      · show -1 < -s; linarith
      · show -s < - -s; linarith
      · show - -s < 1; linarith
  · have h0 : 0 < √(21 : ℝ) := by positivity
    have h1 : √(21 : ℝ) < 7 := by rw [Real.sqrt_lt' (by norm_num)]; norm_num
    unfold lobatto at h
    generalize √(21 : ℝ) = s at *
    cases h
    refine ⟨rfl, rfl, ?_, ?_, ?_, inside_of_steps rfl rfl ?_⟩
    · intro i; fin_cases i <;> norm_num [Fin.rev]
    · intro i; fin_cases i <;> norm_num [Fin.rev]
    · intro i; fin_cases i <;> norm_num
    · intro i; fin_cases i
      · show -1 < -s / 7; linarith
      · show -s / 7 < 0; linarith
      · show 0 < -(-s / 7); linarith
      · show -(-s / 7) < 1; linarith
  · have h7 : √(7 : ℝ) < 3 := sqrt7_lt
    have h70 : 0 < √(7 : ℝ) := by positivity
    have hb : 0 < √((7 - 2 * √7) / 21 : ℝ) := Real.sqrt_pos.2 (by linarith)
    have hab : √((7 - 2 * √7) / 21 : ℝ) < √((7 + 2 * √7) / 21 : ℝ) :=
      Real.sqrt_lt_sqrt (by linarith) (by linarith)
    have ha : √((7 + 2 * √7) / 21 : ℝ) < 1 := by rw [Real.sqrt_lt' (by norm_num)]; linarith
    unfold lobatto at h
    generalize √((7 + 2 * √7) / 21 : ℝ) = a at *
    generalize √((7 - 2 * √7) / 21 : ℝ) = b at *
    generalize √(7 : ℝ) = s at *
    cases h
    refine ⟨rfl, rfl, ?_, ?_, ?_, inside_of_steps rfl rfl ?_⟩
    · intro i; fin_cases i <;> norm_num [Fin.rev]
    · intro i; fin_cases i <;> norm_num [Fin.rev]
    · intro i; fin_cases i <;> norm_num <;> linarith
    · intro i; fin_cases i
      · show -1 < -a; linarith
      · show -a < -b; linarith
      · show -b < - -b; linarith
      · show - -b < - -a; linarith
      · show - -a < 1; linarith
  · cases h
    exact Table.sound (by decide +kernel) (by decide +kernel) (by decide +kernel) (by decide +kernel)
      (by decide +kernel) (by decide +kernel)
  · cases h
    exact Table.sound (by decide +kernel) (by decide +kernel) (by decide +kernel) (by decide +kernel)
      (by decide +kernel) (by decide +kernel)
  · cases h
    exact Table.sound (by decide +kernel) (by decide +kernel) (by decide +kernel) (by decide +kernel)
      (by decide +kernel) (by decide +kernel)
  · cases h
    exact Table.sound (by decide +kernel) (by decide +kernel) (by decide +kernel) (by decide +kernel)
      (by decide +kernel) (by decide +kernel)

/-! ### Example -/

example : ∃ r, lobatto 2 = some r ∧
    (r.integrator (.shifted (.linear 0 2) 1)).integrate (fun x => x ^ 3) = 20 := by
  obtain ⟨r, hr, he⟩ := lobatto_exact (m := 2) (by norm_num) (by norm_num)
  refine ⟨r, hr, ?_⟩
  have := integrate_exact he (.shifted (.linear 0 2) 1) (X ^ 3) (by simp)
  simp only [eval_pow, eval_X] at this
  rw [this]
  simp [Coordinate.xLeft, Coordinate.xRight]
  norm_num

end MiniCFD.PyQuad
