import Verif.Model.Gauss
import Verif.Spec.Gauss
import Mathlib.Analysis.SpecialFunctions.Integrals.Basic
import Mathlib.MeasureTheory.Integral.IntervalIntegral.FundThmCalculus
import Mathlib.Algebra.BigOperators.Group.List.Basic
import Mathlib.Tactic.Linarith
import Mathlib.Tactic.FieldSimp
import Mathlib.Tactic.Ring
import Mathlib.Tactic.FunProp
import Mathlib.Tactic.IntervalCases
import Mathlib.Topology.Algebra.Polynomial

/-! # Helper lemmas for the quadrature rules -/

namespace MiniCFD.Gauss

open Polynomial MeasureTheory intervalIntegral
open MiniCFD.Spec.Gauss

section
variable {K : Type*} [Field K] {Pt : Type*}

theorem foldl_add_eq (l : List K) (s : K) : l.foldl (· + ·) s = s + l.sum := by
  induction l generalizing s with
  | nil => simp
  | cons a l ih => simp [ih, add_assoc]

theorem quadrature_eq (ps : List Pt) (ws : List K) (f : Pt → K) :
    quadrature ps ws f = ((ps.zip ws).map fun pw => f pw.1 * pw.2).sum := by
  unfold quadrature
  rw [← zero_add (List.sum _), ← foldl_add_eq, List.foldl_map]

theorem quadrature_add (ps : List Pt) (ws : List K) (f g : Pt → K) :
    quadrature ps ws (fun x => f x + g x) = quadrature ps ws f + quadrature ps ws g := by
  simp only [quadrature_eq]
  induction ps.zip ws with
  | nil => simp
  | cons a l ih => simp only [List.map_cons, List.sum_cons, ih]; ring

theorem quadrature_smul (ps : List Pt) (ws : List K) (c : K) (f : Pt → K) :
    quadrature ps ws (fun x => c * f x) = c * quadrature ps ws f := by
  simp only [quadrature_eq]
  induction ps.zip ws with
  | nil => simp
  | cons a l ih => simp only [List.map_cons, List.sum_cons, ih]; ring

theorem quadrature_zero (ps : List Pt) (ws : List K) : quadrature ps ws (fun _ => 0) = 0 := by
  have := quadrature_smul ps ws 0 (fun _ => 0)
  simpa using this

theorem quadrature_sum {ι : Type*} (ps : List Pt) (ws : List K) (s : Finset ι) (f : ι → Pt → K) :
    quadrature ps ws (fun x => ∑ i ∈ s, f i x) = ∑ i ∈ s, quadrature ps ws (f i) := by
  classical
  induction s using Finset.induction_on with
  | empty => simp [quadrature_zero]
  | insert a s ha ih =>
    simp only [Finset.sum_insert ha, quadrature_add, ih]

end

/-! ### One dimension -/

/-- The moments of `[-1, 1]`. -/
def mom {K : Type*} [Field K] (k : ℕ) : K := (1 - (-1) ^ (k + 1)) / (k + 1)

theorem integral_mom (k : ℕ) : ∫ x in (-1 : ℝ)..1, x ^ k = mom k := by
  rw [integral_pow]; simp [mom]

theorem integral_poly (d : ℕ) (p : ℝ[X]) (hp : p.natDegree ≤ d) (w : ℝ → ℝ) (hw : Continuous w) :
    ∫ x in (-1 : ℝ)..1, p.eval x * w x =
      ∑ k ∈ Finset.range (d + 1), p.coeff k * ∫ x in (-1 : ℝ)..1, x ^ k * w x := by
  have : ∀ x : ℝ, p.eval x * w x = ∑ k ∈ Finset.range (d + 1), p.coeff k * (x ^ k * w x) := by
    intro x
    rw [eval_eq_sum_range' (Nat.lt_succ_of_le hp), Finset.sum_mul]
    exact Finset.sum_congr rfl fun _ _ => by ring
  simp only [this]
  rw [intervalIntegral.integral_finset_sum]
  · exact Finset.sum_congr rfl fun _ _ => intervalIntegral.integral_const_mul _ _
  · intro i _
    apply Continuous.intervalIntegrable
    fun_prop

theorem quadrature_poly (ps ws : List ℝ) (d : ℕ) (p : ℝ[X]) (hp : p.natDegree ≤ d) :
    quadrature ps ws (fun x => p.eval x) =
      ∑ k ∈ Finset.range (d + 1), p.coeff k * quadrature ps ws (fun x => x ^ k) := by
  have : (fun x : ℝ => p.eval x) = fun x => ∑ k ∈ Finset.range (d + 1), p.coeff k * x ^ k := by
    funext x; rw [eval_eq_sum_range' (Nat.lt_succ_of_le hp)]
  rw [this, quadrature_sum]
  exact Finset.sum_congr rfl fun _ _ => quadrature_smul _ _ _ _

/-- It is enough to look at the monomials. -/
theorem exactTo_of_moments {ps ws : List ℝ} {d : ℕ}
    (h : ∀ k ≤ d, quadrature ps ws (fun x => x ^ k) = mom k) : ExactTo (quadrature ps ws) d := by
  intro p hp
  have h1 := integral_poly d p hp (fun _ => 1) continuous_const
  simp only [mul_one] at h1
  rw [h1, quadrature_poly ps ws d p hp]
  refine Finset.sum_congr rfl fun k hk => ?_
  rw [h k (by simpa [Nat.lt_succ_iff] using hk), integral_mom]

theorem nearTo_of_moments {ps ws : List ℝ} {d : ℕ} {ε : ℝ} (w : ℝ → ℝ) (hw : Continuous w)
    (h : ∀ k ≤ d, |quadrature ps ws (fun x => x ^ k) - ∫ x in (-1 : ℝ)..1, x ^ k * w x| ≤ ε) :
    NearTo w (quadrature ps ws) d ε := by
  intro p hp
  rw [integral_poly d p hp w hw, quadrature_poly ps ws d p hp, ← Finset.sum_sub_distrib,
    Finset.mul_sum]
  refine (Finset.abs_sum_le_sum_abs _ _).trans (Finset.sum_le_sum fun k hk => ?_)
  rw [← mul_sub, abs_mul, mul_comm]
  exact mul_le_mul_of_nonneg_right (h k (by simpa [Nat.lt_succ_iff] using hk)) (abs_nonneg _)

/-! ### Casting tables of rational numbers -/

/-- A table of rational numbers seen as real numbers. -/
def Rule1.real (r : Rule1 ℚ) : Rule1 ℝ := ⟨r.points.map (↑), r.weights.map (↑)⟩

/-- A table of rational numbers seen as real numbers. -/
def Rule2.real (r : Rule2 ℚ) : Rule2 ℝ :=
  ⟨r.points.map fun p => ((p.1 : ℝ), (p.2 : ℝ)), r.weights.map (↑)⟩

/-- A table of rational numbers seen as real numbers. -/
def Rule3.real (r : Rule3 ℚ) : Rule3 ℝ :=
  ⟨r.points.map fun p => ((p.1 : ℝ), (p.2.1 : ℝ), (p.2.2 : ℝ)), r.weights.map (↑)⟩

theorem quadrature_cast {P Q : Type*} (ps : List P) (ws : List ℚ) (e : P → Q) (f : Q → ℝ) (g : P → ℚ)
    (h : ∀ p, f (e p) = (g p : ℝ)) :
    quadrature (ps.map e) (ws.map (fun w : ℚ => (w : ℝ))) f = ((quadrature ps ws g : ℚ) : ℝ) := by
  simp only [quadrature_eq]
  induction ps generalizing ws with
  | nil => simp
  | cons p ps ih =>
    cases ws with
    | nil => simp
    | cons w ws =>
      simp only [List.map_cons, List.zip_cons_cons, List.sum_cons, Rat.cast_add, Rat.cast_mul, h, ih]

theorem abs_cast_le {q m ε : ℚ} (h : m - ε ≤ q ∧ q ≤ m + ε) : |(q : ℝ) - (m : ℝ)| ≤ (ε : ℝ) := by
  have h1 : ((m - ε : ℚ) : ℝ) ≤ (q : ℝ) := by exact_mod_cast h.1
  have h2 : (q : ℝ) ≤ ((m + ε : ℚ) : ℝ) := by exact_mod_cast h.2
  push_cast at h1 h2
  rw [abs_le]; constructor <;> linarith

theorem mom_cast (k : ℕ) : ((mom k : ℚ) : ℝ) = mom k := by simp [mom]

/-! ### Simplices -/

/-- The Beta integral on `[0, s]`. -/
theorem beta (b c : ℕ) (s : ℝ) :
    ∫ y in (0 : ℝ)..s, y ^ b * (s - y) ^ c =
      (b.factorial * c.factorial / (b + c + 1).factorial : ℝ) * s ^ (b + c + 1) := by
  induction b generalizing c with
  | zero =>
    have h : ∀ y ∈ Set.uIcc (0 : ℝ) s,
        HasDerivAt (fun y => -((s - y) ^ (c + 1) / (c + 1))) (y ^ 0 * (s - y) ^ c) y := by
      intro y _
      have h1 : HasDerivAt (fun y => (s - y) ^ (c + 1)) (((c + 1 : ℕ) : ℝ) * (s - y) ^ c * (0 - 1)) y :=
        ((hasDerivAt_const y s).sub (hasDerivAt_id y)).fun_pow (c + 1)
      refine (h1.div_const _).neg.congr_deriv ?_
      have : ((c : ℝ) + 1) ≠ 0 := by positivity
      push_cast; field_simp; ring
    rw [integral_eq_sub_of_hasDerivAt h (Continuous.intervalIntegrable (by fun_prop) _ _)]
    have : ((c : ℝ) + 1) ≠ 0 := by positivity
    have h2 : (c.factorial : ℝ) ≠ 0 := by exact_mod_cast c.factorial_ne_zero
    simp [Nat.factorial_succ]
    field_simp
  | succ b ih =>
    have h : ∀ y ∈ Set.uIcc (0 : ℝ) s,
        HasDerivAt (fun y => y ^ (b + 1) * (s - y) ^ (c + 1))
          ((b + 1) * (y ^ b * (s - y) ^ (c + 1)) - (c + 1) * (y ^ (b + 1) * (s - y) ^ c)) y := by
      intro y _
      have h1 : HasDerivAt (fun y => (s - y) ^ (c + 1)) (((c + 1 : ℕ) : ℝ) * (s - y) ^ c * (0 - 1)) y :=
        ((hasDerivAt_const y s).sub (hasDerivAt_id y)).fun_pow (c + 1)
      refine ((hasDerivAt_pow (b + 1) y).mul h1).congr_deriv ?_
      push_cast; ring
    have h3 := integral_eq_sub_of_hasDerivAt h (Continuous.intervalIntegrable (by fun_prop) _ _)
    rw [intervalIntegral.integral_sub (Continuous.intervalIntegrable (by fun_prop) _ _)
      (Continuous.intervalIntegrable (by fun_prop) _ _),
      intervalIntegral.integral_const_mul, intervalIntegral.integral_const_mul, ih] at h3
    have hc : ((c : ℝ) + 1) ≠ 0 := by positivity
    have h4 : ((b + (c + 1) + 1).factorial : ℝ) ≠ 0 := by exact_mod_cast Nat.factorial_ne_zero _
    have e : b + 1 + c + 1 = b + (c + 1) + 1 := by omega
    rw [e]
    have h5 : (c + 1 : ℝ) * ∫ y in (0 : ℝ)..s, y ^ (b + 1) * (s - y) ^ c =
        (b + 1) * ((b.factorial * (c + 1).factorial / (b + (c + 1) + 1).factorial : ℝ) *
          s ^ (b + (c + 1) + 1)) := by
      simp at h3; push_cast at h3 ⊢; linarith
    have h6 : ((c + 1).factorial : ℝ) = (c + 1) * c.factorial := by
      rw [Nat.factorial_succ]; push_cast; ring
    have h7 : ((b + 1).factorial : ℝ) = (b + 1) * b.factorial := by
      rw [Nat.factorial_succ]; push_cast; ring
    rw [h6] at h5
    rw [h7]
    apply mul_left_cancel₀ hc
    rw [h5]; ring

/-- The moments of the reference triangle. -/
def mom2 {K : Type*} [Field K] (a b : ℕ) : K := a.factorial * b.factorial / (a + b + 2).factorial

/-- The moments of the reference tetrahedron. -/
def mom3 {K : Type*} [Field K] (a b c : ℕ) : K :=
  a.factorial * b.factorial * c.factorial / (a + b + c + 3).factorial

theorem integral_pow_to (b : ℕ) (s : ℝ) : ∫ y in (0 : ℝ)..s, y ^ b = s ^ (b + 1) / (b + 1) := by
  rw [integral_pow]; simp

theorem triangle_mom (a b : ℕ) : triangleIntegral (fun x y => x ^ a * y ^ b) = mom2 a b := by
  unfold triangleIntegral
  simp only [intervalIntegral.integral_const_mul, integral_pow_to]
  have : ∀ x : ℝ, x ^ a * ((1 - x) ^ (b + 1) / (b + 1)) =
      (1 / (b + 1)) * (x ^ a * (1 - x) ^ (b + 1)) := fun x => by ring
  simp only [this, intervalIntegral.integral_const_mul, beta]
  unfold mom2
  have hb : ((b : ℝ) + 1) ≠ 0 := by positivity
  rw [Nat.factorial_succ b, show a + (b + 1) + 1 = a + b + 2 by omega]
  push_cast
  field_simp
  simp

theorem tetrahedron_mom (a b c : ℕ) :
    tetrahedronIntegral (fun x y z => x ^ a * y ^ b * z ^ c) = mom3 a b c := by
  unfold tetrahedronIntegral
  have h1 : ∀ x y : ℝ, x ^ a * y ^ b * ((1 - x - y) ^ (c + 1) / (c + 1)) =
      (x ^ a / (c + 1)) * (y ^ b * (1 - x - y) ^ (c + 1)) := fun x y => by ring
  simp only [intervalIntegral.integral_const_mul, integral_pow_to, h1, beta]
  have h2 : ∀ x K : ℝ, x ^ a / (c + 1) * (K * (1 - x) ^ (b + (c + 1) + 1)) =
      (K / (c + 1)) * (x ^ a * (1 - x) ^ (b + (c + 1) + 1)) := fun x K => by ring
  simp only [h2, intervalIntegral.integral_const_mul, beta]
  unfold mom3
  have hc : ((c : ℝ) + 1) ≠ 0 := by positivity
  have h4 : ((b + (c + 1) + 1).factorial : ℝ) ≠ 0 := by exact_mod_cast Nat.factorial_ne_zero _
  rw [show a + (b + (c + 1) + 1) + 1 = a + b + c + 3 by omega, Nat.factorial_succ c]
  push_cast
  field_simp
  simp

theorem triangleIntegral_poly (d : ℕ) (c : ℕ → ℕ → ℝ) :
    triangleIntegral (poly2 d c) =
      ∑ a ∈ Finset.range (d + 1), ∑ b ∈ Finset.range (d + 1 - a), c a b * mom2 a b := by
  simp only [← triangle_mom]
  unfold triangleIntegral poly2
  have h1 : ∀ x : ℝ, (∫ y in (0 : ℝ)..(1 - x), ∑ a ∈ Finset.range (d + 1),
      ∑ b ∈ Finset.range (d + 1 - a), c a b * (x ^ a * y ^ b)) =
      ∑ a ∈ Finset.range (d + 1), ∑ b ∈ Finset.range (d + 1 - a),
        c a b * (x ^ a * ((1 - x) ^ (b + 1) / (b + 1))) := by
    intro x
    rw [intervalIntegral.integral_finset_sum
      (fun a _ => Continuous.intervalIntegrable (by fun_prop) _ _)]
    refine Finset.sum_congr rfl fun a _ => ?_
    rw [intervalIntegral.integral_finset_sum
      (fun b _ => Continuous.intervalIntegrable (by fun_prop) _ _)]
    refine Finset.sum_congr rfl fun b _ => ?_
    rw [intervalIntegral.integral_const_mul, intervalIntegral.integral_const_mul, integral_pow_to]
  simp only [h1]
  rw [intervalIntegral.integral_finset_sum
    (fun a _ => Continuous.intervalIntegrable (by fun_prop) _ _)]
  refine Finset.sum_congr rfl fun a _ => ?_
  rw [intervalIntegral.integral_finset_sum
    (fun b _ => Continuous.intervalIntegrable (by fun_prop) _ _)]
  refine Finset.sum_congr rfl fun b _ => ?_
  simp only [intervalIntegral.integral_const_mul, integral_pow_to]

theorem tetrahedronIntegral_poly (d : ℕ) (c : ℕ → ℕ → ℕ → ℝ) :
    tetrahedronIntegral (poly3 d c) =
      ∑ a ∈ Finset.range (d + 1), ∑ b ∈ Finset.range (d + 1 - a),
        ∑ e ∈ Finset.range (d + 1 - a - b), c a b e * mom3 a b e := by
  simp only [← tetrahedron_mom]
  unfold tetrahedronIntegral poly3
  have h1 : ∀ x y : ℝ, (∫ z in (0 : ℝ)..(1 - x - y), ∑ a ∈ Finset.range (d + 1),
      ∑ b ∈ Finset.range (d + 1 - a), ∑ e ∈ Finset.range (d + 1 - a - b),
        c a b e * (x ^ a * y ^ b * z ^ e)) =
      ∑ a ∈ Finset.range (d + 1), ∑ b ∈ Finset.range (d + 1 - a),
        ∑ e ∈ Finset.range (d + 1 - a - b),
          c a b e * (x ^ a * y ^ b * ((1 - x - y) ^ (e + 1) / (e + 1))) := by
    intro x y
    rw [intervalIntegral.integral_finset_sum
      (fun a _ => Continuous.intervalIntegrable (by fun_prop) _ _)]
    refine Finset.sum_congr rfl fun a _ => ?_
    rw [intervalIntegral.integral_finset_sum
      (fun b _ => Continuous.intervalIntegrable (by fun_prop) _ _)]
    refine Finset.sum_congr rfl fun b _ => ?_
    rw [intervalIntegral.integral_finset_sum
      (fun b _ => Continuous.intervalIntegrable (by fun_prop) _ _)]
    refine Finset.sum_congr rfl fun e _ => ?_
    rw [intervalIntegral.integral_const_mul, intervalIntegral.integral_const_mul, integral_pow_to]
  have h2 : ∀ x : ℝ, (∫ y in (0 : ℝ)..(1 - x), ∑ a ∈ Finset.range (d + 1),
      ∑ b ∈ Finset.range (d + 1 - a), ∑ e ∈ Finset.range (d + 1 - a - b),
        c a b e * (x ^ a * y ^ b * ((1 - x - y) ^ (e + 1) / (e + 1)))) =
      ∑ a ∈ Finset.range (d + 1), ∑ b ∈ Finset.range (d + 1 - a),
        ∑ e ∈ Finset.range (d + 1 - a - b),
          c a b e * (x ^ a * ((b.factorial * (e + 1).factorial / (b + (e + 1) + 1).factorial : ℝ) *
            (1 - x) ^ (b + (e + 1) + 1)) / (e + 1)) := by
    intro x
    rw [intervalIntegral.integral_finset_sum
      (fun a _ => Continuous.intervalIntegrable (by fun_prop) _ _)]
    refine Finset.sum_congr rfl fun a _ => ?_
    rw [intervalIntegral.integral_finset_sum
      (fun b _ => Continuous.intervalIntegrable (by fun_prop) _ _)]
    refine Finset.sum_congr rfl fun b _ => ?_
    rw [intervalIntegral.integral_finset_sum
      (fun b _ => Continuous.intervalIntegrable (by fun_prop) _ _)]
    refine Finset.sum_congr rfl fun e _ => ?_
    rw [← beta, ← intervalIntegral.integral_const_mul, ← intervalIntegral.integral_div,
      ← intervalIntegral.integral_const_mul]
    exact intervalIntegral.integral_congr fun y _ => by ring
  simp only [h1, h2]
  rw [intervalIntegral.integral_finset_sum
    (fun a _ => Continuous.intervalIntegrable (by fun_prop) _ _)]
  refine Finset.sum_congr rfl fun a _ => ?_
  rw [intervalIntegral.integral_finset_sum
    (fun b _ => Continuous.intervalIntegrable (by fun_prop) _ _)]
  refine Finset.sum_congr rfl fun b _ => ?_
  rw [intervalIntegral.integral_finset_sum
    (fun b _ => Continuous.intervalIntegrable (by fun_prop) _ _)]
  refine Finset.sum_congr rfl fun e _ => ?_
  rw [intervalIntegral.integral_const_mul]
  congr 1
  refine intervalIntegral.integral_congr fun x _ => ?_
  rw [← beta, ← intervalIntegral.integral_const_mul, ← intervalIntegral.integral_div]
  refine intervalIntegral.integral_congr fun y _ => ?_
  rw [intervalIntegral.integral_const_mul, integral_pow_to]
  ring

/-- It is enough to look at the monomials. -/
theorem triangleTo_of_moments {ps : List (ℝ × ℝ)} {ws : List ℝ} {d : ℕ} {ε : ℝ}
    (h : ∀ a b, a + b ≤ d → |quadrature ps ws (fun p => p.1 ^ a * p.2 ^ b) - mom2 a b| ≤ ε) :
    TriangleTo (quadrature ps ws) d ε := by
  intro c
  rw [triangleIntegral_poly]
  unfold poly2 size2
  rw [quadrature_sum, ← Finset.sum_sub_distrib, Finset.mul_sum]
  refine (Finset.abs_sum_le_sum_abs _ _).trans (Finset.sum_le_sum fun a ha => ?_)
  rw [quadrature_sum, ← Finset.sum_sub_distrib, Finset.mul_sum]
  refine (Finset.abs_sum_le_sum_abs _ _).trans (Finset.sum_le_sum fun b hb => ?_)
  rw [Finset.mem_range] at ha hb
  rw [quadrature_smul, ← mul_sub, abs_mul, mul_comm]
  exact mul_le_mul_of_nonneg_right (h a b (by omega)) (abs_nonneg _)

/-- It is enough to look at the monomials. -/
theorem tetrahedronTo_of_moments {ps : List (ℝ × ℝ × ℝ)} {ws : List ℝ} {d : ℕ} {ε : ℝ}
    (h : ∀ a b e, a + b + e ≤ d →
      |quadrature ps ws (fun p => p.1 ^ a * p.2.1 ^ b * p.2.2 ^ e) - mom3 a b e| ≤ ε) :
    TetrahedronTo (quadrature ps ws) d ε := by
  intro c
  rw [tetrahedronIntegral_poly]
  unfold poly3 size3
  rw [quadrature_sum, ← Finset.sum_sub_distrib, Finset.mul_sum]
  refine (Finset.abs_sum_le_sum_abs _ _).trans (Finset.sum_le_sum fun a ha => ?_)
  rw [quadrature_sum, ← Finset.sum_sub_distrib, Finset.mul_sum]
  refine (Finset.abs_sum_le_sum_abs _ _).trans (Finset.sum_le_sum fun b hb => ?_)
  rw [quadrature_sum, ← Finset.sum_sub_distrib, Finset.mul_sum]
  refine (Finset.abs_sum_le_sum_abs _ _).trans (Finset.sum_le_sum fun e he => ?_)
  rw [Finset.mem_range] at ha hb he
  rw [quadrature_smul, ← mul_sub, abs_mul, mul_comm]
  exact mul_le_mul_of_nonneg_right (h a b e (by omega)) (abs_nonneg _)

theorem mom2_cast (a b : ℕ) : ((mom2 a b : ℚ) : ℝ) = mom2 a b := by simp [mom2]
theorem mom3_cast (a b c : ℕ) : ((mom3 a b c : ℚ) : ℝ) = mom3 a b c := by simp [mom3]

/-! ### Products -/

section
variable {K : Type*} [Field K]

theorem zip_product {A B C W : Type*} (as : List A) (us : List W) (bs : List B) (vs : List W)
    (h : bs.length = vs.length) (e : A → B → C) (m : W → W → W) :
    (as.flatMap fun a => bs.map (e a)).zip (us.flatMap fun u => vs.map (m u)) =
      (as.zip us).flatMap fun au => (bs.zip vs).map fun bv => (e au.1 bv.1, m au.2 bv.2) := by
  induction as generalizing us with
  | nil => simp
  | cons a as ih =>
    cases us with
    | nil => simp
    | cons u us =>
      simp only [List.flatMap_cons, List.zip_cons_cons]
      rw [List.zip_append (by simp [h]), ih, List.zip_map]
      rfl

theorem sum_product {A B : Type*} (l : List A) (k : List B) (f : A → K) (g : B → K) :
    ((l.flatMap fun a => k.map fun b => f a * g b)).sum = (l.map f).sum * (k.map g).sum := by
  induction l with
  | nil => simp
  | cons a l ih =>
    simp only [List.flatMap_cons, List.sum_append, ih, List.map_cons, List.sum_cons, add_mul]
    rw [List.sum_map_mul_left]

theorem quadrangle_product (gx gy : Rule1 K) (hy : gy.points.length = gy.weights.length)
    (f g : K → K) :
    quadrature (quadrangle gx gy).points (quadrangle gx gy).weights (fun p => f p.1 * g p.2) =
      quadrature gx.points gx.weights f * quadrature gy.points gy.weights g := by
  simp only [quadrature_eq, quadrangle]
  rw [zip_product _ _ _ _ hy (fun x y => (x, y)) (fun u v => u * v), ← sum_product,
    List.map_flatMap]
  simp only [List.map_map]
  congr 1
  refine List.flatMap_congr fun a _ => List.map_congr_left fun b _ => ?_
  simp only [Function.comp]
  ring

theorem length_flatMap_map {A B C : Type*} (as : List A) (bs : List B) (e : A → B → C) :
    (as.flatMap fun a => bs.map (e a)).length = as.length * bs.length := by
  induction as with
  | nil => simp
  | cons a as ih => simp [ih, Nat.add_mul, Nat.add_comm]

theorem wedge_product (gt : Rule2 K) (gz : Rule1 K) (hz : gz.points.length = gz.weights.length)
    (f : K × K → K) (g : K → K) :
    quadrature (wedge gt gz).points (wedge gt gz).weights (fun p => f (p.1, p.2.1) * g p.2.2) =
      quadrature gt.points gt.weights f * quadrature gz.points gz.weights g := by
  simp only [quadrature_eq, wedge]
  rw [zip_product _ _ _ _ hz (fun (p : K × K) z => (p.1, p.2, z)) (fun u v => u * v), ← sum_product,
    List.map_flatMap]
  simp only [List.map_map]
  congr 1
  refine List.flatMap_congr fun a _ => List.map_congr_left fun b _ => ?_
  simp only [Function.comp]
  ring

/-- The three nested loops are a wedge over the square. -/
theorem hexahedron_eq_wedge (gx gy gz : Rule1 K) :
    hexahedron gx gy gz = wedge (quadrangle gx gy) gz := by
  simp only [hexahedron, wedge, quadrangle, List.flatMap_assoc, List.flatMap_map]

theorem hexahedron_product (gx gy gz : Rule1 K) (hy : gy.points.length = gy.weights.length)
    (hz : gz.points.length = gz.weights.length) (f g h : K → K) :
    quadrature (hexahedron gx gy gz).points (hexahedron gx gy gz).weights
        (fun p => f p.1 * g p.2.1 * h p.2.2) =
      quadrature gx.points gx.weights f * quadrature gy.points gy.weights g *
        quadrature gz.points gz.weights h := by
  rw [hexahedron_eq_wedge, ← quadrangle_product gx gy hy f g]
  exact wedge_product (quadrangle gx gy) gz hz (fun p => f p.1 * g p.2) h

/-- The rule in the third direction that the weights of a pyramid are products with. -/
def unweighted (gz : Rule1 K) : Rule1 K :=
  ⟨gz.points, (gz.points.zip gz.weights).map fun zw => zw.2 * ((1 - zw.1) ^ 2)⁻¹⟩

theorem pyramid_eq (gx gy gz : Rule1 K) : pyramid gx gy gz = hexahedron gx gy (unweighted gz) := by
  simp only [pyramid, hexahedron, unweighted, List.map_map, Function.comp_def, mul_assoc]

theorem unweighted_quadrature (gz : Rule1 K) (h1 : ∀ z ∈ gz.points, z ≠ 1) (f : K → K) :
    quadrature (unweighted gz).points (unweighted gz).weights (fun z => f z * (1 - z) ^ 2) =
      quadrature gz.points gz.weights f := by
  obtain ⟨ps, ws⟩ := gz
  simp only [quadrature_eq, unweighted]
  dsimp only at h1
  induction ps generalizing ws with
  | nil => simp
  | cons p ps ih =>
    cases ws with
    | nil => simp
    | cons w ws =>
      have hp : (1 - p) ≠ 0 := sub_ne_zero.2 (h1 p (by simp)).symm
      simp only [List.zip_cons_cons, List.map_cons, List.sum_cons]
      rw [ih ws (fun z hz => h1 z (by simp [hz]))]
      congr 1
      field_simp

end

end MiniCFD.Gauss
