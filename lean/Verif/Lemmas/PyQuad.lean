import Verif.Model.PyQuad
import Verif.Spec.PyQuad
import Verif.Lemmas.Gauss
import Mathlib.Algebra.BigOperators.Fin
import Mathlib.Data.Rat.Cast.CharZero
import Mathlib.Tactic.Linarith
import Mathlib.Tactic.Ring
import Mathlib.Tactic.FieldSimp
import Mathlib.Tactic.Positivity
import Mathlib.Algebra.BigOperators.Group.Finset.Basic

/-! Helper lemmas about integrators of the Python code. -/

namespace MiniCFD.PyQuad
open MiniCFD.Spec.PyQuad Polynomial
open MiniCFD.Gauss (mom integral_mom integral_poly mom_cast)
open MiniCFD.Spec.Gauss (ExactTo NearTo)

theorem foldl_sum {ι V : Type*} [AddCommGroup V] (l : List ι) (g : ι → V) (a : V) :
    l.foldl (fun v i => v + g i) a = a + (l.map g).sum := by
  induction l generalizing a with
  | nil => simp
  | cons i l ih => rw [List.foldl_cons, ih, List.map_cons, List.sum_cons, add_assoc]

namespace Integrator
variable {m : Nat} {V : Type*} [AddCommGroup V] [Module ℝ V]

theorem integrate_eq (q : Integrator m) (f : ℝ → V) :
    q.integrate f = ∑ i, q.weights i • f (q.points i) := by
  rw [integrate, foldl_sum, Fin.sum_univ_succ]
  congr 1

theorem integrateIndex_eq (q : Integrator m) (f : Fin (m + 1) → V) :
    q.integrateIndex f = ∑ i, q.weights i • f i := by
  rw [integrateIndex, foldl_sum, Fin.sum_univ_succ]
  congr 1

end Integrator

/-- The functional of a local rule. -/
def Rule.apply {m : Nat} (r : Rule m) (f : ℝ → ℝ) : ℝ := ∑ i, r.w i * f (r.x i)

theorem Rule.apply_poly {m : Nat} (r : Rule m) (d : ℕ) (p : ℝ[X]) (hp : p.natDegree ≤ d) :
    r.apply (fun x => p.eval x) = ∑ k ∈ Finset.range (d + 1), p.coeff k * r.apply (fun x => x ^ k) := by
  unfold Rule.apply
  simp only [Finset.mul_sum]
  rw [Finset.sum_comm]
  refine Finset.sum_congr rfl fun i _ => ?_
  rw [eval_eq_sum_range' (Nat.lt_succ_of_le hp), Finset.mul_sum]
  exact Finset.sum_congr rfl fun _ _ => by ring

theorem Rule.exact_of_moments {m : Nat} {r : Rule m} {d : ℕ}
    (h : ∀ k ≤ d, r.apply (fun x => x ^ k) = mom k) : ExactTo r.apply d := by
  intro p hp
  have h1 := integral_poly d p hp (fun _ => 1) continuous_const
  simp only [mul_one] at h1
  rw [h1, r.apply_poly d p hp]
  refine Finset.sum_congr rfl fun k hk => ?_
  rw [h k (by simpa [Nat.lt_succ_iff] using hk), integral_mom]

/-- The moments of a table, in rational arithmetic. -/
def Table.moment {m : Nat} (t : Table m) (k : ℕ) : ℚ :=
  ((List.finRange (m + 1)).map fun i => t.w i * t.x i ^ k).sum

theorem Table.rule_moment {m : Nat} (t : Table m) (k : ℕ) :
    t.rule.apply (fun x => x ^ k) = (t.moment k : ℝ) := by
  rw [Table.moment, ← List.ofFn_eq_map, List.sum_ofFn]
  push_cast
  rfl

theorem Table.near {m : Nat} {t : Table m} {d : ℕ} {ε : ℚ}
    (h : ∀ k : Fin (d + 1), mom k - ε ≤ t.moment k ∧ t.moment k ≤ mom k + ε) :
    NearTo (fun _ => 1) t.rule.apply d ε := by
  intro p hp
  rw [integral_poly d p hp _ continuous_const, t.rule.apply_poly d p hp, ← Finset.sum_sub_distrib,
    Finset.mul_sum]
  refine (Finset.abs_sum_le_sum_abs _ _).trans (Finset.sum_le_sum fun k hk => ?_)
  rw [← mul_sub, abs_mul, mul_comm]
  refine mul_le_mul_of_nonneg_right ?_ (abs_nonneg _)
  simp only [mul_one]
  rw [integral_mom, Table.rule_moment, ← mom_cast]
  exact Gauss.abs_cast_le (h ⟨k, by simpa using hk⟩)

namespace Coordinate

/-- The end points of the interval do not depend on how the coordinate was built. -/
theorem eq_linear (c : Coordinate) :
    c.length = c.xRight - c.xLeft ∧ c.xCenter = (c.xLeft + c.xRight) / 2 ∧
    (∀ x, c.localToJacobian x = (c.xRight - c.xLeft) / 2) ∧
    (∀ x, c.globalToJacobian x = (c.xRight - c.xLeft) / 2) ∧
    (∀ x, c.localToGlobal x = (c.xLeft + c.xRight) / 2 + x * ((c.xRight - c.xLeft) / 2)) ∧
    ∀ x, c.globalToLocal x = (x - (c.xLeft + c.xRight) / 2) / ((c.xRight - c.xLeft) / 2) := by
  induction c with
  | linear l r => exact ⟨rfl, rfl, fun _ => rfl, fun _ => rfl, fun _ => rfl, fun _ => rfl⟩
  | shifted c s ih =>
    obtain ⟨h1, h2, h3, h4, h5, h6⟩ := ih
    simp only [length, xLeft, xRight, xCenter, localToJacobian, globalToJacobian, localToGlobal,
      globalToLocal, h1, h2, h3, h4, h5, h6]
    refine ⟨by ring, by ring, fun _ => by ring, fun _ => by ring, fun _ => by ring, fun x => ?_⟩
    congr 1 <;> ring

end Coordinate

end MiniCFD.PyQuad
