import Verif.Lemmas.Gauss
import Mathlib.Tactic.NormNum
import Mathlib.Tactic.CasesM

/-!
# C37: the quadrature rules integrate polynomials

Rules given in closed form are exact.  Rules given by decimal literals are exact up to the number of
digits that the literals carry; the bound is part of each statement.
-/

namespace MiniCFD.Gauss

open Polynomial MeasureTheory intervalIntegral
open MiniCFD.Spec.Gauss

/-- What the rule computes. -/
noncomputable def Rule1.apply (r : Rule1 ℝ) : (ℝ → ℝ) → ℝ := quadrature r.points r.weights
/-- What the rule computes. -/
noncomputable def Rule2.apply (r : Rule2 ℝ) : (ℝ × ℝ → ℝ) → ℝ := quadrature r.points r.weights
/-- What the rule computes. -/
noncomputable def Rule3.apply (r : Rule3 ℝ) : (ℝ × ℝ × ℝ → ℝ) → ℝ := quadrature r.points r.weights

/-! ### Gauss-Legendre: `Q` points, degree `2 Q - 1` -/

theorem legendre1_exact : ExactTo legendre1.apply 1 := by
  refine exactTo_of_moments fun k hk => ?_
  interval_cases k <;> simp [legendre1, quadrature, mom]
  norm_num

theorem legendre2_exact : ExactTo legendre2.apply 3 := by
  refine exactTo_of_moments fun k hk => ?_
  have h : √(1 / 3 : ℝ) ^ 2 = 1 / 3 := Real.sq_sqrt (by norm_num)
  simp only [legendre2, quadrature, mom, List.zip_cons_cons, List.zip_nil_right, List.foldl_cons,
    List.foldl_nil]
  generalize √(1 / 3 : ℝ) = s at *
  interval_cases k <;> norm_num <;> grind

theorem legendre3_exact : ExactTo legendre3.apply 5 := by
  refine exactTo_of_moments fun k hk => ?_
  have h : √(0.6 : ℝ) ^ 2 = 0.6 := Real.sq_sqrt (by norm_num)
  simp only [legendre3, quadrature, mom, List.zip_cons_cons, List.zip_nil_right, List.foldl_cons,
    List.foldl_nil]
  generalize √(0.6 : ℝ) = s at *
  norm_num at h
  interval_cases k <;> norm_num <;> grind

/-- `√30 = 5 √1.2`. -/
theorem sqrt30 : √(30 : ℝ) = 5 * √1.2 := by
  rw [show (30 : ℝ) = 5 ^ 2 * 1.2 by norm_num, Real.sqrt_mul (by norm_num),
    Real.sqrt_sq (by norm_num)]

theorem sqrt12_lt : √(1.2 : ℝ) < 1.1 := by
  rw [Real.sqrt_lt' (by norm_num)]; norm_num

theorem legendre4_exact : ExactTo legendre4.apply 7 := by
  refine exactTo_of_moments fun k hk => ?_
  have h : √(1.2 : ℝ) ^ 2 = 1.2 := Real.sq_sqrt (by norm_num)
  have h1 : √((3 + 2 * √1.2) / 7 : ℝ) ^ 2 = (3 + 2 * √1.2) / 7 := Real.sq_sqrt (by positivity)
  have h2 : √((3 - 2 * √1.2) / 7 : ℝ) ^ 2 = (3 - 2 * √1.2) / 7 :=
    Real.sq_sqrt (by have := sqrt12_lt; linarith)
  simp only [legendre4, quadrature, mom, List.zip_cons_cons, List.zip_nil_right, List.foldl_cons,
    List.foldl_nil, sqrt30]
  generalize √((3 + 2 * √1.2) / 7 : ℝ) = x at *
  generalize √((3 - 2 * √1.2) / 7 : ℝ) = y at *
  generalize √(1.2 : ℝ) = s at *
  norm_num at h
  interval_cases k <;> norm_num <;> grind

/-- `√70 = 3.5 √(40/7)`. -/
theorem sqrt70 : √(70 : ℝ) = 7 / 2 * √(40 / 7) := by
  rw [show (70 : ℝ) = (7 / 2) ^ 2 * (40 / 7) by norm_num, Real.sqrt_mul (by norm_num),
    Real.sqrt_sq (by norm_num)]

theorem sqrt407_lt : √(40 / 7 : ℝ) < 5 / 2 := by
  rw [Real.sqrt_lt' (by norm_num)]; norm_num

theorem legendre5_exact : ExactTo legendre5.apply 9 := by
  refine exactTo_of_moments fun k hk => ?_
  have h : √(40 / 7 : ℝ) ^ 2 = 40 / 7 := Real.sq_sqrt (by norm_num)
  have h1 : √((5 + √(40 / 7)) / 9 : ℝ) ^ 2 = (5 + √(40 / 7)) / 9 := Real.sq_sqrt (by positivity)
  have h2 : √((5 - √(40 / 7)) / 9 : ℝ) ^ 2 = (5 - √(40 / 7)) / 9 :=
    Real.sq_sqrt (by have := sqrt407_lt; linarith)
  simp only [legendre5, quadrature, mom, List.zip_cons_cons, List.zip_nil_right, List.foldl_cons,
    List.foldl_nil, sqrt70]
  generalize √((5 + √(40 / 7)) / 9 : ℝ) = x at *
  generalize √((5 - √(40 / 7)) / 9 : ℝ) = y at *
  generalize √(40 / 7 : ℝ) = s at *
  interval_cases k <;> norm_num <;> grind

/-- The table in rational arithmetic: all the moments up to degree 11. -/
theorem legendre6_table : ∀ k : Fin 12,
    (mom k : ℚ) - 4 / 10 ^ 16 ≤ quadrature legendre6.points legendre6.weights (· ^ (k : ℕ)) ∧
    quadrature legendre6.points legendre6.weights (· ^ (k : ℕ)) ≤ mom k + 4 / 10 ^ 16 := by
  decide +kernel

theorem cast_moment (r : Rule1 ℚ) (k : ℕ) :
    quadrature r.real.points r.real.weights (fun x => x ^ k) =
      ((quadrature r.points r.weights (· ^ k) : ℚ) : ℝ) :=
  quadrature_cast _ _ _ _ _ fun p => by push_cast; rfl

theorem legendre6_near : NearTo (fun _ => 1) legendre6.real.apply 11 (4 / 10 ^ 16) := by
  refine nearTo_of_moments _ continuous_const fun k hk => ?_
  simp only [mul_one]
  rw [integral_mom, cast_moment, ← mom_cast]
  have := abs_cast_le (legendre6_table ⟨k, by omega⟩)
  simpa using this

/-! ### Gauss-Lobatto: `Q` points, degree `2 Q - 3` -/

theorem lobatto2_exact : ExactTo lobatto2.apply 1 := by
  refine exactTo_of_moments fun k hk => ?_
  interval_cases k <;> simp [lobatto2, quadrature, mom]

theorem lobatto3_exact : ExactTo lobatto3.apply 3 := by
  refine exactTo_of_moments fun k hk => ?_
  interval_cases k <;> simp [lobatto3, quadrature, mom] <;> norm_num

theorem lobatto4_exact : ExactTo lobatto4.apply 5 := by
  refine exactTo_of_moments fun k hk => ?_
  have h : √(1 / 5 : ℝ) ^ 2 = 1 / 5 := Real.sq_sqrt (by norm_num)
  simp only [lobatto4, quadrature, mom, List.zip_cons_cons, List.zip_nil_right, List.foldl_cons,
    List.foldl_nil]
  generalize √(1 / 5 : ℝ) = s at *
  interval_cases k <;> norm_num <;> grind

theorem lobatto5_exact : ExactTo lobatto5.apply 7 := by
  refine exactTo_of_moments fun k hk => ?_
  have h : √(21 : ℝ) ^ 2 = 21 := Real.sq_sqrt (by norm_num)
  simp only [lobatto5, quadrature, mom, List.zip_cons_cons, List.zip_nil_right, List.foldl_cons,
    List.foldl_nil]
  generalize √(21 : ℝ) = s at *
  interval_cases k <;> norm_num <;> grind

theorem sqrt7_lt : √(7 : ℝ) < 3 := by
  rw [Real.sqrt_lt' (by norm_num)]; norm_num

theorem lobatto6_exact : ExactTo lobatto6.apply 9 := by
  refine exactTo_of_moments fun k hk => ?_
  have h : √(7 : ℝ) ^ 2 = 7 := Real.sq_sqrt (by norm_num)
  have h1 : √((7 + 2 * √7) / 21 : ℝ) ^ 2 = (7 + 2 * √7) / 21 := Real.sq_sqrt (by positivity)
  have h2 : √((7 - 2 * √7) / 21 : ℝ) ^ 2 = (7 - 2 * √7) / 21 :=
    Real.sq_sqrt (by have := sqrt7_lt; linarith)
  simp only [lobatto6, quadrature, mom, List.zip_cons_cons, List.zip_nil_right, List.foldl_cons,
    List.foldl_nil]
  generalize √((7 + 2 * √7) / 21 : ℝ) = x at *
  generalize √((7 - 2 * √7) / 21 : ℝ) = y at *
  generalize √(7 : ℝ) = s at *
  interval_cases k <;> norm_num <;> grind

/-! ### Gauss-Jacobi with the weight `(1 - ξ)²`: `Q` points, degree `2 Q - 1` -/

/-- The moments of the weight `(1 - ξ)²`. -/
def jmom {K : Type*} [Field K] (k : ℕ) : K := mom k - 2 * mom (k + 1) + mom (k + 2)

theorem integral_jmom (k : ℕ) : ∫ x in (-1 : ℝ)..1, x ^ k * (1 - x) ^ 2 = jmom k := by
  have : ∀ x : ℝ, x ^ k * (1 - x) ^ 2 = x ^ k - 2 * x ^ (k + 1) + x ^ (k + 2) := fun x => by ring
  simp only [this]
  rw [intervalIntegral.integral_add (Continuous.intervalIntegrable (by fun_prop) _ _)
    (Continuous.intervalIntegrable (by fun_prop) _ _),
    intervalIntegral.integral_sub (Continuous.intervalIntegrable (by fun_prop) _ _)
    (Continuous.intervalIntegrable (by fun_prop) _ _), intervalIntegral.integral_const_mul,
    integral_mom, integral_mom, integral_mom, jmom]

/-- What one has to check of a table of rational numbers. -/
def JacobiTable (r : Rule1 ℚ) (n : ℕ) (ε : ℚ) : Prop :=
  ∀ k : Fin n, (jmom (k : ℕ) : ℚ) - ε ≤ quadrature r.points r.weights (· ^ (k : ℕ)) ∧
    quadrature r.points r.weights (· ^ (k : ℕ)) ≤ jmom (k : ℕ) + ε

instance (r n ε) : Decidable (JacobiTable r n ε) := by unfold JacobiTable; infer_instance

theorem jacobi_near (r : Rule1 ℚ) (d : ℕ) (ε : ℚ) (h : JacobiTable r (d + 1) ε) :
    NearTo (fun x => (1 - x) ^ 2) r.real.apply d ε := by
  refine nearTo_of_moments _ (by fun_prop) fun k hk => ?_
  rw [integral_jmom, cast_moment]
  have := abs_cast_le (h ⟨k, by omega⟩)
  simpa [jmom, mom_cast] using this

theorem jacobi1_near : NearTo (fun x => (1 - x) ^ 2) jacobi1.real.apply 1 (2 / 10 ^ 15 : ℚ) :=
  jacobi_near _ _ _ (by decide +kernel)
theorem jacobi2_near : NearTo (fun x => (1 - x) ^ 2) jacobi2.real.apply 3 (2 / 10 ^ 15 : ℚ) :=
  jacobi_near _ _ _ (by decide +kernel)
theorem jacobi3_near : NearTo (fun x => (1 - x) ^ 2) jacobi3.real.apply 5 (2 / 10 ^ 15 : ℚ) :=
  jacobi_near _ _ _ (by decide +kernel)
theorem jacobi4_near : NearTo (fun x => (1 - x) ^ 2) jacobi4.real.apply 7 (2 / 10 ^ 15 : ℚ) :=
  jacobi_near _ _ _ (by decide +kernel)
theorem jacobi5_near : NearTo (fun x => (1 - x) ^ 2) jacobi5.real.apply 9 (2 / 10 ^ 15 : ℚ) :=
  jacobi_near _ _ _ (by decide +kernel)

/-! ### Shape: as many weights as points, increasing points, positive weights, symmetry -/

/-- The points increase strictly, lie in `[-1, 1]`, and every weight is positive. -/
def Sound (r : Rule1 ℝ) : Prop :=
  r.points.length = r.weights.length ∧ r.points.Pairwise (· < ·) ∧
    (∀ x ∈ r.points, -1 ≤ x ∧ x ≤ 1) ∧ ∀ w ∈ r.weights, 0 < w

/-- The rule is invariant under the reflection of the interval. -/
def Symmetric (r : Rule1 ℝ) : Prop :=
  r.points.reverse = r.points.map (- ·) ∧ r.weights.reverse = r.weights

/-- Splits a statement about all the members of a list and hands the rest to linear arithmetic. -/
macro "shape" : tactic => `(tactic|
  (simp only [List.pairwise_cons, List.mem_cons, List.not_mem_nil, or_false, forall_eq_or_imp,
      forall_eq, false_imp_iff, implies_true, and_true, List.Pairwise.nil, IsEmpty.forall_iff]
   try constructorm* _ ∧ _
   all_goals linarith))

theorem legendre1_sound : Sound legendre1 ∧ Symmetric legendre1 := by
  simp [Sound, Symmetric, legendre1]

theorem legendre2_sound : Sound legendre2 ∧ Symmetric legendre2 := by
  have h0 : 0 < √(1 / 3 : ℝ) := Real.sqrt_pos.2 (by norm_num)
  have h1 : √(1 / 3 : ℝ) < 1 := by rw [Real.sqrt_lt' (by norm_num)]; norm_num
  simp only [Sound, Symmetric, legendre2]
  generalize √(1 / 3 : ℝ) = s at *
  refine ⟨⟨rfl, ?_, ?_, ?_⟩, by simp, by simp⟩ <;> shape

theorem legendre3_sound : Sound legendre3 ∧ Symmetric legendre3 := by
  have h0 : 0 < √(0.6 : ℝ) := Real.sqrt_pos.2 (by norm_num)
  have h1 : √(0.6 : ℝ) < 1 := by rw [Real.sqrt_lt' (by norm_num)]; norm_num
  simp only [Sound, Symmetric, legendre3]
  generalize √(0.6 : ℝ) = s at *
  refine ⟨⟨rfl, ?_, ?_, ?_⟩, by simp, by simp⟩ <;> shape

theorem legendre4_sound : Sound legendre4 ∧ Symmetric legendre4 := by
  have e0 : 1 < √(1.2 : ℝ) := by rw [Real.lt_sqrt (by norm_num)]; norm_num
  have e1 := sqrt12_lt
  have h0 : 0 < √((3 - 2 * √1.2) / 7 : ℝ) := Real.sqrt_pos.2 (by linarith)
  have h1 : √((3 - 2 * √1.2) / 7 : ℝ) < √((3 + 2 * √1.2) / 7 : ℝ) :=
    Real.sqrt_lt_sqrt (by linarith) (by linarith)
  have h2 : √((3 + 2 * √1.2) / 7 : ℝ) < 1 := by
    rw [Real.sqrt_lt' (by norm_num)]; linarith
  simp only [Sound, Symmetric, legendre4, sqrt30]
  generalize √((3 + 2 * √1.2) / 7 : ℝ) = x at *
  generalize √((3 - 2 * √1.2) / 7 : ℝ) = y at *
  generalize √(1.2 : ℝ) = s at *
  refine ⟨⟨rfl, ?_, ?_, ?_⟩, by simp, by simp⟩
  · shape
  · shape
  · shape

theorem legendre5_sound : Sound legendre5 ∧ Symmetric legendre5 := by
  have e0 : 2 < √(40 / 7 : ℝ) := by rw [Real.lt_sqrt (by norm_num)]; norm_num
  have e1 := sqrt407_lt
  have h0 : 0 < √((5 - √(40 / 7)) / 9 : ℝ) := Real.sqrt_pos.2 (by linarith)
  have h1 : √((5 - √(40 / 7)) / 9 : ℝ) < √((5 + √(40 / 7)) / 9 : ℝ) :=
    Real.sqrt_lt_sqrt (by linarith) (by linarith)
  have h2 : √((5 + √(40 / 7)) / 9 : ℝ) < 1 := by
    rw [Real.sqrt_lt' (by norm_num)]; linarith
  simp only [Sound, Symmetric, legendre5, sqrt70]
  generalize √((5 + √(40 / 7)) / 9 : ℝ) = x at *
  generalize √((5 - √(40 / 7)) / 9 : ℝ) = y at *
  generalize √(40 / 7 : ℝ) = s at *
  refine ⟨⟨rfl, ?_, ?_, ?_⟩, by simp, by simp⟩
  · shape
  · shape
  · shape

theorem lobatto2_sound : Sound lobatto2 ∧ Symmetric lobatto2 := by
  simp [Sound, Symmetric, lobatto2]

theorem lobatto3_sound : Sound lobatto3 ∧ Symmetric lobatto3 := by
  simp [Sound, Symmetric, lobatto3]

theorem lobatto4_sound : Sound lobatto4 ∧ Symmetric lobatto4 := by
  have h0 : 0 < √(1 / 5 : ℝ) := Real.sqrt_pos.2 (by norm_num)
  have h1 : √(1 / 5 : ℝ) < 1 := by rw [Real.sqrt_lt' (by norm_num)]; norm_num
  simp only [Sound, Symmetric, lobatto4]
  generalize √(1 / 5 : ℝ) = s at *
  refine ⟨⟨rfl, ?_, ?_, ?_⟩, by simp, by simp⟩
  · shape
  · shape
  · shape

theorem lobatto5_sound : Sound lobatto5 ∧ Symmetric lobatto5 := by
  have h0 : 0 < √(21 : ℝ) := Real.sqrt_pos.2 (by norm_num)
  have h1 : √(21 : ℝ) < 7 := by rw [Real.sqrt_lt' (by norm_num)]; norm_num
  simp only [Sound, Symmetric, lobatto5]
  generalize √(21 : ℝ) = s at *
  refine ⟨⟨rfl, ?_, ?_, ?_⟩, by simp [neg_div], by simp⟩
  · shape
  · shape
  · shape

theorem lobatto6_sound : Sound lobatto6 ∧ Symmetric lobatto6 := by
  have e0 : 2 < √(7 : ℝ) := by rw [Real.lt_sqrt (by norm_num)]; norm_num
  have e1 := sqrt7_lt
  have h0 : 0 < √((7 - 2 * √7) / 21 : ℝ) := Real.sqrt_pos.2 (by linarith)
  have h1 : √((7 - 2 * √7) / 21 : ℝ) < √((7 + 2 * √7) / 21 : ℝ) :=
    Real.sqrt_lt_sqrt (by linarith) (by linarith)
  have h2 : √((7 + 2 * √7) / 21 : ℝ) < 1 := by
    rw [Real.sqrt_lt' (by norm_num)]; linarith
  simp only [Sound, Symmetric, lobatto6]
  generalize √((7 + 2 * √7) / 21 : ℝ) = x at *
  generalize √((7 - 2 * √7) / 21 : ℝ) = y at *
  generalize √(7 : ℝ) = s at *
  refine ⟨⟨rfl, ?_, ?_, ?_⟩, by simp, by simp⟩
  · shape
  · shape
  · shape

/-- Lobatto rules contain both ends, at the first and at the last index: the nodal schemes rely on
it to find the solution on the faces. -/
theorem lobatto_ends : ∀ r ∈ [lobatto2, lobatto3, lobatto4, lobatto5, lobatto6],
    r.points.head? = some (-1) ∧ r.points.getLast? = some 1 := by
  simp [lobatto2, lobatto3, lobatto4, lobatto5, lobatto6]

/-- What a table of rational numbers has to satisfy. -/
theorem sound_of_table (r : Rule1 ℚ) (h : r.points.length = r.weights.length ∧
    r.points.Pairwise (· < ·) ∧ (∀ x ∈ r.points, -1 ≤ x ∧ x ≤ 1) ∧ ∀ w ∈ r.weights, 0 < w) :
    Sound r.real := by
  obtain ⟨h1, h2, h3, h4⟩ := h
  refine ⟨by simp [Rule1.real, h1], ?_, ?_, ?_⟩
  · simp only [Rule1.real, List.pairwise_map]
    exact h2.imp fun h => by exact_mod_cast h
  · simp only [Rule1.real, List.mem_map]
    rintro _ ⟨x, hx, rfl⟩
    have := h3 x hx
    exact ⟨by exact_mod_cast this.1, by exact_mod_cast this.2⟩
  · simp only [Rule1.real, List.mem_map]
    rintro _ ⟨x, hx, rfl⟩
    exact_mod_cast h4 x hx

theorem legendre6_sound : Sound legendre6.real ∧ Symmetric legendre6.real := by
  refine ⟨sound_of_table _ (by decide +kernel), ?_⟩
  constructor <;> simp [Rule1.real, legendre6]

theorem jacobi_sound : ∀ r ∈ [jacobi1, jacobi2, jacobi3, jacobi4, jacobi5], Sound r.real := by
  intro r hr
  fin_cases hr <;> exact sound_of_table _ (by decide +kernel)

/-! ### Triangles -/

/-- What one has to check of a table of rational numbers. -/
def TriangleTable (r : Rule2 ℚ) (n : ℕ) (ε : ℚ) : Prop :=
  ∀ a b : Fin n, (a : ℕ) + b < n →
    (mom2 (a : ℕ) (b : ℕ) : ℚ) - ε ≤
      quadrature r.points r.weights (fun p => p.1 ^ (a : ℕ) * p.2 ^ (b : ℕ)) ∧
    quadrature r.points r.weights (fun p => p.1 ^ (a : ℕ) * p.2 ^ (b : ℕ)) ≤
      mom2 (a : ℕ) (b : ℕ) + ε

instance (r n ε) : Decidable (TriangleTable r n ε) := by unfold TriangleTable; infer_instance

theorem triangle_near (r : Rule2 ℚ) (d : ℕ) (ε : ℚ) (h : TriangleTable r (d + 1) ε) :
    TriangleTo r.real.apply d ε := by
  refine triangleTo_of_moments fun a b hab => ?_
  have e : quadrature r.real.points r.real.weights (fun p => p.1 ^ a * p.2 ^ b) =
      ((quadrature r.points r.weights (fun p => p.1 ^ a * p.2 ^ b) : ℚ) : ℝ) :=
    quadrature_cast _ _ _ _ _ fun p => by push_cast; rfl
  rw [e, ← mom2_cast]
  exact abs_cast_le (h ⟨a, by omega⟩ ⟨b, by omega⟩ (show a + b < d + 1 by omega))

theorem triangle1_near : TriangleTo triangle1.real.apply 1 (1 / 10 ^ 34 : ℚ) :=
  triangle_near _ _ _ (by decide +kernel)
/-- The three-point rule is given by exact fractions and has no error at all. -/
theorem triangle3_exact : TriangleTo triangle3.real.apply 2 (0 : ℚ) :=
  triangle_near _ _ _ (by decide +kernel)
theorem triangle6_near : TriangleTo triangle6.real.apply 4 (1 / 10 ^ 34 : ℚ) :=
  triangle_near _ _ _ (by decide +kernel)
theorem triangle12_near : TriangleTo triangle12.real.apply 6 (1 / 10 ^ 34 : ℚ) :=
  triangle_near _ _ _ (by decide +kernel)
theorem triangle16_near : TriangleTo triangle16.real.apply 8 (1 / 10 ^ 34 : ℚ) :=
  triangle_near _ _ _ (by decide +kernel)

/-- As many weights as points; every point strictly inside the triangle, every weight positive. -/
theorem triangle_sound : ∀ r ∈ [triangle1, triangle3, triangle6, triangle12, triangle16],
    r.points.length = r.weights.length ∧ (∀ p ∈ r.points, 0 < p.1 ∧ 0 < p.2 ∧ p.1 + p.2 < 1) ∧
      ∀ w ∈ r.weights, 0 < w := by
  decide +kernel

/-- The template argument is the number of points. -/
theorem triangle_count :
    [triangle1, triangle3, triangle6, triangle12, triangle16].map (·.points.length) =
      [1, 3, 6, 12, 16] := by
  decide +kernel

/-- The degree cannot be raised: each rule misses some moment of the next degree by more than `10⁻⁷`. -/
theorem triangle_sharp :
    ∀ rd ∈ [(triangle1, 2), (triangle3, 3), (triangle6, 5), (triangle12, 7), (triangle16, 9)],
      ¬ TriangleTable rd.1 (rd.2 + 1) (1 / 10 ^ 7) := by
  decide +kernel

/-! ### Tetrahedra -/

/-- What one has to check of a table of rational numbers. -/
def TetrahedronTable (r : Rule3 ℚ) (n : ℕ) (ε : ℚ) : Prop :=
  ∀ a b c : Fin n, (a : ℕ) + b + c < n →
    (mom3 (a : ℕ) (b : ℕ) (c : ℕ) : ℚ) - ε ≤
      quadrature r.points r.weights (fun p => p.1 ^ (a : ℕ) * p.2.1 ^ (b : ℕ) * p.2.2 ^ (c : ℕ)) ∧
    quadrature r.points r.weights (fun p => p.1 ^ (a : ℕ) * p.2.1 ^ (b : ℕ) * p.2.2 ^ (c : ℕ)) ≤
      mom3 (a : ℕ) (b : ℕ) (c : ℕ) + ε

instance (r n ε) : Decidable (TetrahedronTable r n ε) := by unfold TetrahedronTable; infer_instance

theorem tetrahedron_near (r : Rule3 ℚ) (d : ℕ) (ε : ℚ) (h : TetrahedronTable r (d + 1) ε) :
    TetrahedronTo r.real.apply d ε := by
  refine tetrahedronTo_of_moments fun a b c hab => ?_
  have e : quadrature r.real.points r.real.weights (fun p => p.1 ^ a * p.2.1 ^ b * p.2.2 ^ c) =
      ((quadrature r.points r.weights (fun p => p.1 ^ a * p.2.1 ^ b * p.2.2 ^ c) : ℚ) : ℝ) :=
    quadrature_cast _ _ _ _ _ fun p => by push_cast; rfl
  rw [e, ← mom3_cast]
  exact abs_cast_le
    (h ⟨a, by omega⟩ ⟨b, by omega⟩ ⟨c, by omega⟩ (show a + b + c < d + 1 by omega))

/-- The one-point rule is exact. -/
theorem tetrahedron1_exact : TetrahedronTo tetrahedron1.real.apply 1 (0 : ℚ) :=
  tetrahedron_near _ _ _ (by decide +kernel)
theorem tetrahedron4_near : TetrahedronTo tetrahedron4.real.apply 2 (1 / 10 ^ 34 : ℚ) :=
  tetrahedron_near _ _ _ (by decide +kernel)
theorem tetrahedron14_near : TetrahedronTo tetrahedron14.real.apply 5 (1 / 10 ^ 34 : ℚ) :=
  tetrahedron_near _ _ _ (by decide +kernel)
theorem tetrahedron15_near : TetrahedronTo tetrahedron15.real.apply 5 (4 / 10 ^ 18 : ℚ) :=
  tetrahedron_near _ _ _ (by decide +kernel)
theorem tetrahedron24_near : TetrahedronTo tetrahedron24.real.apply 6 (1 / 10 ^ 34 : ℚ) :=
  tetrahedron_near _ _ _ (by decide +kernel)
theorem tetrahedron46_near : TetrahedronTo tetrahedron46.real.apply 8 (1 / 10 ^ 34 : ℚ) :=
  tetrahedron_near _ _ _ (by decide +kernel)

theorem tetrahedron_sound : ∀ r ∈ [tetrahedron1, tetrahedron4, tetrahedron14, tetrahedron15,
      tetrahedron24, tetrahedron46],
    r.points.length = r.weights.length ∧
      (∀ p ∈ r.points, 0 < p.1 ∧ 0 < p.2.1 ∧ 0 < p.2.2 ∧ p.1 + p.2.1 + p.2.2 < 1) ∧
      ∀ w ∈ r.weights, 0 < w := by
  decide +kernel

theorem tetrahedron_count :
    [tetrahedron1, tetrahedron4, tetrahedron14, tetrahedron15, tetrahedron24, tetrahedron46].map
      (·.points.length) = [1, 4, 14, 15, 24, 46] := by
  decide +kernel

/-! ### Products -/

theorem integral_sum_pow (n : ℕ) (c : ℕ → ℝ) :
    ∫ y in (-1 : ℝ)..1, ∑ b ∈ Finset.range (n + 1), c b * y ^ b =
      ∑ b ∈ Finset.range (n + 1), c b * mom b := by
  rw [intervalIntegral.integral_finset_sum
    (fun a _ => Continuous.intervalIntegrable (by fun_prop) _ _)]
  exact Finset.sum_congr rfl fun b _ => by rw [intervalIntegral.integral_const_mul, integral_mom]

theorem square_tensor (m n : ℕ) (c : ℕ → ℕ → ℝ) :
    squareIntegral (tensor2 m n c) = ∑ a ∈ Finset.range (m + 1), ∑ b ∈ Finset.range (n + 1),
      c a b * (mom a * mom b) := by
  unfold squareIntegral tensor2
  have h1 : ∀ x y : ℝ, (∑ a ∈ Finset.range (m + 1), ∑ b ∈ Finset.range (n + 1),
      c a b * (x ^ a * y ^ b)) =
      ∑ b ∈ Finset.range (n + 1), (∑ a ∈ Finset.range (m + 1), c a b * x ^ a) * y ^ b := by
    intro x y
    rw [Finset.sum_comm]
    refine Finset.sum_congr rfl fun b _ => ?_
    rw [Finset.sum_mul]
    exact Finset.sum_congr rfl fun a _ => by ring
  simp only [h1, integral_sum_pow]
  have h2 : ∀ x : ℝ, (∑ b ∈ Finset.range (n + 1), (∑ a ∈ Finset.range (m + 1), c a b * x ^ a) *
      (mom b : ℝ)) =
      ∑ a ∈ Finset.range (m + 1), (∑ b ∈ Finset.range (n + 1), c a b * mom b) * x ^ a := by
    intro x
    simp only [Finset.sum_mul]
    rw [Finset.sum_comm]
    exact Finset.sum_congr rfl fun a _ => Finset.sum_congr rfl fun b _ => by ring
  simp only [h2, integral_sum_pow]
  refine Finset.sum_congr rfl fun a _ => ?_
  rw [Finset.sum_mul]
  exact Finset.sum_congr rfl fun b _ => by ring

theorem moment_of_exact {r : Rule1 ℝ} {d : ℕ} (h : ExactTo r.apply d) {k : ℕ} (hk : k ≤ d) :
    quadrature r.points r.weights (fun x => x ^ k) = mom k := by
  have := h (X ^ k) (by simpa using hk)
  simp only [eval_pow, eval_X] at this
  rw [integral_mom] at this
  exact this

/-- A quadrangle integrates exactly every polynomial whose degree in each variable is within the
degree of the rule in that direction. -/
theorem quadrangle_exact (gx gy : Rule1 ℝ) (m n : ℕ) (hx : ExactTo gx.apply m)
    (hy : ExactTo gy.apply n) (sy : gy.points.length = gy.weights.length) (c : ℕ → ℕ → ℝ) :
    (quadrangle gx gy).apply (fun p => tensor2 m n c p.1 p.2) = squareIntegral (tensor2 m n c) := by
  rw [square_tensor]
  unfold tensor2 Rule2.apply
  rw [quadrature_sum]
  refine Finset.sum_congr rfl fun a ha => ?_
  rw [quadrature_sum]
  refine Finset.sum_congr rfl fun b hb => ?_
  rw [Finset.mem_range] at ha hb
  rw [quadrature_smul, quadrangle_product gx gy sy (fun x => x ^ a) (fun y => y ^ b),
    moment_of_exact hx (by omega), moment_of_exact hy (by omega)]

/-- Integration in the third variable only. -/
theorem inner_integral (s : Finset ℕ) (t : ℕ → Finset ℕ) (l : ℕ) (c : ℕ → ℕ → ℕ → ℝ) (w : ℝ → ℝ)
    (hw : Continuous w) (x y : ℝ) :
    ∫ z in (-1 : ℝ)..1, (∑ a ∈ s, ∑ b ∈ t a, ∑ e ∈ Finset.range (l + 1),
        c a b e * (x ^ a * y ^ b * z ^ e)) * w z =
      ∑ a ∈ s, ∑ b ∈ t a, (∑ e ∈ Finset.range (l + 1),
        c a b e * ∫ z in (-1 : ℝ)..1, z ^ e * w z) * (x ^ a * y ^ b) := by
  simp only [Finset.sum_mul]
  rw [intervalIntegral.integral_finset_sum
    (fun a _ => Continuous.intervalIntegrable (by fun_prop) _ _)]
  refine Finset.sum_congr rfl fun a _ => ?_
  rw [intervalIntegral.integral_finset_sum
    (fun a _ => Continuous.intervalIntegrable (by fun_prop) _ _)]
  refine Finset.sum_congr rfl fun b _ => ?_
  rw [intervalIntegral.integral_finset_sum
    (fun a _ => Continuous.intervalIntegrable (by fun_prop) _ _)]
  refine Finset.sum_congr rfl fun e _ => ?_
  have : ∀ z : ℝ, c a b e * (x ^ a * y ^ b * z ^ e) * w z =
      (c a b e * (x ^ a * y ^ b)) * (z ^ e * w z) := fun z => by ring
  simp only [this, intervalIntegral.integral_const_mul]
  ring

theorem cube_weighted (m n l : ℕ) (c : ℕ → ℕ → ℕ → ℝ) (w : ℝ → ℝ) (hw : Continuous w) :
    cubeIntegral (fun x y z => tensor3 m n l c x y z * w z) =
      ∑ a ∈ Finset.range (m + 1), ∑ b ∈ Finset.range (n + 1), ∑ e ∈ Finset.range (l + 1),
        c a b e * (mom a * mom b * ∫ z in (-1 : ℝ)..1, z ^ e * w z) := by
  unfold cubeIntegral tensor3
  simp only [inner_integral _ _ l c w hw]
  refine (square_tensor m n _).trans ?_
  refine Finset.sum_congr rfl fun a _ => Finset.sum_congr rfl fun b _ => ?_
  rw [Finset.sum_mul]
  exact Finset.sum_congr rfl fun e _ => by ring

/-- A hexahedron integrates exactly every polynomial whose degree in each variable is within the
degree of the rule in that direction. -/
theorem hexahedron_exact (gx gy gz : Rule1 ℝ) (m n l : ℕ) (hx : ExactTo gx.apply m)
    (hy : ExactTo gy.apply n) (hz : ExactTo gz.apply l)
    (sy : gy.points.length = gy.weights.length) (sz : gz.points.length = gz.weights.length)
    (c : ℕ → ℕ → ℕ → ℝ) :
    (hexahedron gx gy gz).apply (fun p => tensor3 m n l c p.1 p.2.1 p.2.2) =
      cubeIntegral (tensor3 m n l c) := by
  have e := cube_weighted m n l c (fun _ => 1) continuous_const
  simp only [mul_one, integral_mom] at e
  refine Eq.trans ?_ e.symm
  unfold tensor3 Rule3.apply
  rw [quadrature_sum]
  refine Finset.sum_congr rfl fun a ha => ?_
  rw [quadrature_sum]
  refine Finset.sum_congr rfl fun b hb => ?_
  rw [quadrature_sum]
  refine Finset.sum_congr rfl fun k hk => ?_
  rw [Finset.mem_range] at ha hb hk
  rw [quadrature_smul, hexahedron_product gx gy gz sy sz (fun x => x ^ a) (fun y => y ^ b)
    (fun z => z ^ k), moment_of_exact hx (by omega), moment_of_exact hy (by omega),
    moment_of_exact hz (by omega)]

theorem abs_mom_le (k : ℕ) : |(mom k : ℝ)| ≤ 2 := by
  unfold mom
  rw [abs_div, abs_of_pos (show (0 : ℝ) < k + 1 by positivity), div_le_iff₀ (by positivity)]
  have h1 : |(1 : ℝ) - (-1) ^ (k + 1)| ≤ 2 := by
    rcases neg_one_pow_eq_or ℝ (k + 1) with h | h <;> rw [h] <;> norm_num
  have : (0 : ℝ) ≤ k := by positivity
  linarith

/-- A wedge inherits the error of its triangle when its third direction is exact. -/
theorem wedge_near (gt : Rule2 ℝ) (gz : Rule1 ℝ) (d l : ℕ) (ε : ℝ) (hε : 0 ≤ ε)
    (ht : TriangleTo gt.apply d ε) (hz : ExactTo gz.apply l)
    (sz : gz.points.length = gz.weights.length) (c : ℕ → ℕ → ℕ → ℝ) :
    |(wedge gt gz).apply (fun p => prism d l c p.1 p.2.1 p.2.2) - wedgeIntegral (prism d l c)| ≤
      2 * ε * ∑ a ∈ Finset.range (d + 1), ∑ b ∈ Finset.range (d + 1 - a),
        ∑ e ∈ Finset.range (l + 1), |c a b e| := by
  have e1 : wedgeIntegral (prism d l c) = triangleIntegral (poly2 d fun a b =>
      ∑ e ∈ Finset.range (l + 1), c a b e * mom e) := by
    unfold wedgeIntegral triangleIntegral prism poly2
    have := inner_integral (Finset.range (d + 1)) (fun a => Finset.range (d + 1 - a)) l c
      (fun _ => 1) continuous_const
    simp only [mul_one, integral_mom] at this
    simp only [this]
  have e2 : (wedge gt gz).apply (fun p => prism d l c p.1 p.2.1 p.2.2) =
      gt.apply (fun p => poly2 d (fun a b => ∑ e ∈ Finset.range (l + 1), c a b e * mom e)
        p.1 p.2) := by
    unfold prism poly2 Rule3.apply Rule2.apply
    rw [quadrature_sum, quadrature_sum]
    refine Finset.sum_congr rfl fun a ha => ?_
    rw [quadrature_sum, quadrature_sum]
    refine Finset.sum_congr rfl fun b hb => ?_
    rw [quadrature_sum, quadrature_smul, Finset.sum_mul]
    refine Finset.sum_congr rfl fun k hk => ?_
    rw [Finset.mem_range] at hk
    rw [quadrature_smul, wedge_product gt gz sz (fun p => p.1 ^ a * p.2 ^ b) (fun z => z ^ k),
      moment_of_exact hz (by omega)]
    ring
  rw [e1, e2]
  refine (ht _).trans ?_
  unfold size2
  rw [mul_comm 2 ε, mul_assoc]
  refine mul_le_mul_of_nonneg_left ?_ hε
  rw [Finset.mul_sum]
  refine Finset.sum_le_sum fun a _ => ?_
  rw [Finset.mul_sum]
  refine Finset.sum_le_sum fun b _ => ?_
  rw [Finset.mul_sum]
  refine (Finset.abs_sum_le_sum_abs _ _).trans (Finset.sum_le_sum fun k _ => ?_)
  rw [abs_mul, mul_comm]
  exact mul_le_mul_of_nonneg_right (abs_mom_le k) (abs_nonneg _)

/-- A pyramid integrates a polynomial times `(1 - ζ)²`, which is what the determinant of its map
contributes, with four times the error of the Jacobi rule. -/
theorem pyramid_near (gx gy gz : Rule1 ℝ) (m n l : ℕ) (ε : ℝ) (hε : 0 ≤ ε)
    (hx : ExactTo gx.apply m) (hy : ExactTo gy.apply n)
    (hz : NearTo (fun z => (1 - z) ^ 2) gz.apply l ε)
    (sy : gy.points.length = gy.weights.length) (sz : gz.points.length = gz.weights.length)
    (h1 : ∀ z ∈ gz.points, z ≠ 1) (c : ℕ → ℕ → ℕ → ℝ) :
    |(pyramid gx gy gz).apply (fun p => tensor3 m n l c p.1 p.2.1 p.2.2 * (1 - p.2.2) ^ 2) -
        cubeIntegral (fun x y z => tensor3 m n l c x y z * (1 - z) ^ 2)| ≤
      4 * ε * ∑ a ∈ Finset.range (m + 1), ∑ b ∈ Finset.range (n + 1),
        ∑ e ∈ Finset.range (l + 1), |c a b e| := by
  set q : ℕ → ℕ → ℝ[X] := fun a b => ∑ e ∈ Finset.range (l + 1), monomial e (c a b e) with hq
  have coeff : ∀ a b e, e ∈ Finset.range (l + 1) → (q a b).coeff e = c a b e := by
    intro a b e he
    simp only [hq, finset_sum_coeff, coeff_monomial]
    rw [Finset.sum_ite_eq' ]
    simp [Finset.mem_range.1 he]
  have deg : ∀ a b, (q a b).natDegree ≤ l := by
    intro a b
    refine natDegree_sum_le_of_forall_le _ _ fun e he => ?_
    exact (natDegree_monomial_le _).trans (by rw [Finset.mem_range] at he; omega)
  have ev : ∀ a b z, (q a b).eval z = ∑ e ∈ Finset.range (l + 1), c a b e * z ^ e := by
    intro a b z; simp [hq, eval_finset_sum]
  have e1 : cubeIntegral (fun x y z => tensor3 m n l c x y z * (1 - z) ^ 2) =
      ∑ a ∈ Finset.range (m + 1), ∑ b ∈ Finset.range (n + 1),
        mom a * mom b * ∫ z in (-1 : ℝ)..1, (q a b).eval z * (1 - z) ^ 2 := by
    rw [cube_weighted m n l c _ (by fun_prop)]
    refine Finset.sum_congr rfl fun a _ => Finset.sum_congr rfl fun b _ => ?_
    rw [integral_poly l (q a b) (deg a b) (fun z => (1 - z) ^ 2) (by fun_prop), Finset.mul_sum]
    refine Finset.sum_congr rfl fun e he => ?_
    rw [coeff a b e he]; ring
  have lu : (unweighted gz).points.length = (unweighted gz).weights.length := by
    simp [unweighted, sz]
  have e2 : (pyramid gx gy gz).apply
        (fun p => tensor3 m n l c p.1 p.2.1 p.2.2 * (1 - p.2.2) ^ 2) =
      ∑ a ∈ Finset.range (m + 1), ∑ b ∈ Finset.range (n + 1),
        mom a * mom b * gz.apply (fun z => (q a b).eval z) := by
    have : ∀ p : ℝ × ℝ × ℝ, tensor3 m n l c p.1 p.2.1 p.2.2 * (1 - p.2.2) ^ 2 =
        ∑ a ∈ Finset.range (m + 1), ∑ b ∈ Finset.range (n + 1),
          p.1 ^ a * p.2.1 ^ b * ((q a b).eval p.2.2 * (1 - p.2.2) ^ 2) := by
      intro p
      unfold tensor3
      simp only [Finset.sum_mul, ev, Finset.mul_sum]
      refine Finset.sum_congr rfl fun a _ => Finset.sum_congr rfl fun b _ =>
        Finset.sum_congr rfl fun e _ => ?_
      ring
    simp only [this]
    unfold Rule3.apply
    rw [quadrature_sum]
    refine Finset.sum_congr rfl fun a ha => ?_
    rw [quadrature_sum]
    refine Finset.sum_congr rfl fun b hb => ?_
    rw [Finset.mem_range] at ha hb
    rw [pyramid_eq, hexahedron_product gx gy (unweighted gz) sy lu (fun x => x ^ a)
      (fun y => y ^ b) (fun z => (q a b).eval z * (1 - z) ^ 2),
      unweighted_quadrature gz h1 (fun z => (q a b).eval z),
      moment_of_exact hx (by omega), moment_of_exact hy (by omega)]
    rfl
  rw [e1, e2, ← Finset.sum_sub_distrib, Finset.mul_sum]
  refine (Finset.abs_sum_le_sum_abs _ _).trans (Finset.sum_le_sum fun a _ => ?_)
  rw [← Finset.sum_sub_distrib, Finset.mul_sum]
  refine (Finset.abs_sum_le_sum_abs _ _).trans (Finset.sum_le_sum fun b _ => ?_)
  rw [← mul_sub, abs_mul, abs_mul]
  have h2 := hz (q a b) (deg a b)
  rw [Finset.sum_congr rfl fun e he => by rw [coeff a b e he]] at h2
  have h3 : |(mom a : ℝ)| * |(mom b : ℝ)| ≤ 4 := by
    have := mul_le_mul (abs_mom_le a) (abs_mom_le b) (abs_nonneg _) (by norm_num)
    linarith
  rw [mul_assoc 4 ε]
  exact mul_le_mul h3 h2 (abs_nonneg _) (by norm_num)

/-- The Jacobi rules have no point at the apex, so that no weight of a pyramid divides by zero. -/
theorem jacobi_off_apex : ∀ r ∈ [jacobi1, jacobi2, jacobi3, jacobi4, jacobi5],
    ∀ z ∈ r.points, z ≠ 1 := by
  decide +kernel

/-! ### The rule on an element -/

/-- Integration with the global points and weights is integration of the pulled back function times
the Jacobian with the local ones, and the number that the constructor keeps as the area or volume is
the integral of one. -/
theorem integrate_global {K Pt Qt : Type*} [Field K] (points : List Pt) (weights : List K)
    (map : Pt → Qt) (det : Pt → K) (f : Qt → K) :
    quadrature (buildGlobal points weights map det).1 (buildGlobal points weights map det).2.1 f =
        quadrature points weights (fun p => f (map p) * det p) ∧
      (buildGlobal points weights map det).2.2 = quadrature points weights det := by
  constructor
  · simp only [quadrature_eq, buildGlobal]
    induction points generalizing weights with
    | nil => simp
    | cons p ps ih =>
      cases weights with
      | nil => simp
      | cons w ws =>
        simp only [List.map_cons, List.zip_cons_cons, List.sum_cons, ih]
        ring
  · simp only [quadrature_eq, buildGlobal, foldl_add_eq, zero_add]
    congr 1
    exact List.map_congr_left fun a _ => mul_comm _ _

/-- A segment integrates every polynomial that its rule integrates on `[-1, 1]`, whichever end comes
first. -/
theorem line_exact (g : Rule1 ℝ) (d : ℕ) (hg : ExactTo g.apply d) (a b : ℝ) (p : ℝ[X])
    (hp : p.natDegree ≤ d) :
    (lineGlobal g a b).apply (fun x => p.eval x) = ∫ x in (min a b)..(max a b), p.eval x := by
  have e1 : (lineGlobal g a b).apply (fun x => p.eval x) =
      |a - b| * 0.5 * g.apply (fun x => (p.comp (C ((b - a) / 2) * X + C ((a + b) / 2))).eval x) := by
    unfold Rule1.apply lineGlobal
    rw [← quadrature_smul]
    simp only [quadrature_eq, List.zip_map, List.map_map]
    congr 1
    refine List.map_congr_left fun xw _ => ?_
    simp only [Function.comp, Prod.map, eval_comp, eval_add, eval_mul, eval_C, eval_X]
    rw [show a * (0.5 - xw.1 * 0.5) + b * (0.5 + xw.1 * 0.5) =
      (b - a) / 2 * xw.1 + (a + b) / 2 by ring]
    ring
  have deg : (p.comp (C ((b - a) / 2) * X + C ((a + b) / 2))).natDegree ≤ d := by
    refine natDegree_comp_le.trans ((Nat.mul_le_mul hp (natDegree_linear_le)).trans (by simp))
  rw [e1, hg _ deg]
  simp only [eval_comp, eval_add, eval_mul, eval_C, eval_X]
  have key : (b - a) / 2 * ∫ x in (-1 : ℝ)..1, p.eval ((b - a) / 2 * x + (a + b) / 2) =
      ∫ x in a..b, p.eval x := by
    rw [intervalIntegral.mul_integral_comp_mul_add (f := fun x => p.eval x)]
    congr 1 <;> ring
  rcases le_total a b with h | h
  · rw [min_eq_left h, max_eq_right h, ← key, abs_sub_comm, abs_of_nonneg (by linarith)]
    ring
  · rw [min_eq_right h, max_eq_left h, intervalIntegral.integral_symm a b, ← key,
      abs_of_nonneg (by linarith)]
    ring

/-! ### Examples -/

/-- A polynomial of degree 9 against the five-point rule. -/
example : legendre5.apply (fun x => (X ^ 9 + C 3 * X ^ 8 : ℝ[X]).eval x) =
    ∫ x in (-1)..1, (X ^ 9 + C 3 * X ^ 8 : ℝ[X]).eval x :=
  legendre5_exact _ (by compute_degree)

/-- The hypotheses of the product rules are met by every pair of rules. -/
example (c : ℕ → ℕ → ℝ) :
    (quadrangle legendre4 lobatto5).apply (fun p => tensor2 7 7 c p.1 p.2) =
      squareIntegral (tensor2 7 7 c) :=
  quadrangle_exact _ _ _ _ legendre4_exact lobatto5_exact lobatto5_sound.1.1 c

example (c : ℕ → ℕ → ℕ → ℝ) :
    (hexahedron legendre4 legendre3 lobatto6).apply (fun p => tensor3 7 5 9 c p.1 p.2.1 p.2.2) =
      cubeIntegral (tensor3 7 5 9 c) :=
  hexahedron_exact _ _ _ _ _ _ legendre4_exact legendre3_exact lobatto6_exact legendre3_sound.1.1
    lobatto6_sound.1.1 c

example (c : ℕ → ℕ → ℕ → ℝ) :
    |(wedge triangle16.real legendre4).apply (fun p => prism 8 7 c p.1 p.2.1 p.2.2) -
        wedgeIntegral (prism 8 7 c)| ≤
      2 * ((1 / 10 ^ 34 : ℚ) : ℝ) * ∑ a ∈ Finset.range 9, ∑ b ∈ Finset.range (9 - a),
        ∑ e ∈ Finset.range 8, |c a b e| :=
  wedge_near _ _ _ _ _ (by norm_num) triangle16_near legendre4_exact legendre4_sound.1.1 c

example (c : ℕ → ℕ → ℕ → ℝ) :
    |(pyramid legendre4 legendre4 jacobi4.real).apply
        (fun p => tensor3 7 7 7 c p.1 p.2.1 p.2.2 * (1 - p.2.2) ^ 2) -
        cubeIntegral (fun x y z => tensor3 7 7 7 c x y z * (1 - z) ^ 2)| ≤
      4 * ((2 / 10 ^ 15 : ℚ) : ℝ) * ∑ a ∈ Finset.range 8, ∑ b ∈ Finset.range 8,
        ∑ e ∈ Finset.range 8, |c a b e| := by
  refine pyramid_near _ _ _ _ _ _ _ (by norm_num) legendre4_exact legendre4_exact jacobi4_near
    legendre4_sound.1.1 (jacobi_sound jacobi4 (by simp)).1 ?_ c
  intro z hz
  simp only [Rule1.real, List.mem_map] at hz
  obtain ⟨x, hx, rfl⟩ := hz
  exact_mod_cast jacobi_off_apex jacobi4 (by simp) x hx

example : (lineGlobal legendre2 5 2).apply (fun x => (X ^ 3 : ℝ[X]).eval x) =
    ∫ x in (min 5 2)..(max 5 2), (X ^ 3 : ℝ[X]).eval x :=
  line_exact _ _ legendre2_exact _ _ _ (by simp)

end MiniCFD.Gauss
