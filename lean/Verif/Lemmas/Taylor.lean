import Verif.Model.Taylor
import Verif.Spec.Taylor
import Mathlib.Analysis.Calculus.Deriv.Polynomial
import Mathlib.Algebra.Polynomial.Derivative
import Mathlib.Tactic.Ring
import Mathlib.Tactic.FinCases
import Mathlib.Tactic.NormNum

/-! Closed form of the mixed derivatives of a polynomial. -/

namespace MiniCFD.Taylor
open MiniCFD.Spec.Taylor Polynomial

theorem iteratedDeriv_poly (p : ℝ[X]) (k : Nat) :
    iteratedDeriv k (fun x => p.eval x) = fun x => (derivative^[k] p).eval x := by
  induction k generalizing p with
  | zero => simp
  | succ k ih =>
    rw [iteratedDeriv_succ', Function.iterate_succ_apply, ← ih]
    congr 1
    funext x
    exact p.deriv

theorem iteratedDeriv_sum_pow {ι : Type*} [Fintype ι] (a : ι → ℝ) (e : ι → Nat) (k : Nat) (x : ℝ) :
    iteratedDeriv k (fun x => ∑ i, a i * x ^ e i) x =
      ∑ i, a i * ((e i).descFactorial k * x ^ (e i - k)) := by
  have h : (fun x => ∑ i, a i * x ^ e i) = fun x => (∑ i, C (a i) * X ^ e i : ℝ[X]).eval x := by
    funext x
    rw [eval_finsetSum]
    simp
  have hs : derivative^[k] (∑ i, C (a i) * X ^ e i : ℝ[X]) =
      ∑ i, C (a i) * derivative^[k] (X ^ e i) := by
    clear h x
    have gen : ∀ f : ι → ℝ[X], derivative^[k] (∑ i, f i) = ∑ i, derivative^[k] (f i) := by
      induction k with
      | zero => intro f; rfl
      | succ k ih => intro f; simp only [Function.iterate_succ_apply, derivative_sum, ih]
    rw [gen]
    refine Finset.sum_congr rfl fun i _ => iterate_derivative_C_mul _ _ _
  rw [h, iteratedDeriv_poly]
  simp only [hs, eval_finsetSum, iterate_derivative_X_pow_eq_natCast_mul]
  simp

/-- The mixed derivative of a polynomial, monomial by monomial. -/
theorem mixed_poly {N : Nat} (e : Fin N → Expo) (c : Fin N → ℝ) (a : Expo) (x y z : ℝ) :
    mixed a (poly e c) x y z = ∑ i, c i *
      (((e i).1.descFactorial a.1 * x ^ ((e i).1 - a.1)) *
       ((e i).2.1.descFactorial a.2.1 * y ^ ((e i).2.1 - a.2.1)) *
       ((e i).2.2.descFactorial a.2.2 * z ^ ((e i).2.2 - a.2.2))) := by
  unfold mixed poly
  have hz : ∀ x y : ℝ, iteratedDeriv a.2.2
      (fun z => ∑ i, c i * (x ^ (e i).1 * y ^ (e i).2.1 * z ^ (e i).2.2)) z =
      ∑ i, (c i * (x ^ (e i).1 *
        ((e i).2.2.descFactorial a.2.2 * z ^ ((e i).2.2 - a.2.2)))) * y ^ (e i).2.1 := by
    intro x y
    have := iteratedDeriv_sum_pow (fun i => c i * (x ^ (e i).1 * y ^ (e i).2.1))
      (fun i => (e i).2.2) a.2.2 z
    simp only [← mul_assoc] at this ⊢
    rw [this]
    exact Finset.sum_congr rfl fun i _ => by ring
  simp only [hz]
  have hy : ∀ x : ℝ, iteratedDeriv a.2.1 (fun y => ∑ i, (c i * (x ^ (e i).1 *
      ((e i).2.2.descFactorial a.2.2 * z ^ ((e i).2.2 - a.2.2)))) * y ^ (e i).2.1) y =
      ∑ i, (c i * ((e i).2.1.descFactorial a.2.1 * y ^ ((e i).2.1 - a.2.1)) *
        ((e i).2.2.descFactorial a.2.2 * z ^ ((e i).2.2 - a.2.2))) * x ^ (e i).1 := by
    intro x
    rw [iteratedDeriv_sum_pow]
    exact Finset.sum_congr rfl fun i _ => by ring
  simp only [hy]
  rw [iteratedDeriv_sum_pow]
  exact Finset.sum_congr rfl fun i _ => by ring

theorem put_self {N : Nat} (r : Fin N → ℝ) (d : Fin N) (v : ℝ) : put r d v d = v := if_pos rfl

theorem put_ne {N : Nat} (r : Fin N → ℝ) (d j : Fin N) (v : ℝ) (h : j ≠ d) : put r d v j = r j :=
  if_neg h

/-- Execute the statements on one entry. -/
macro "pdv33_run" : tactic => `(tactic|
  simp only [pdv33, run, steps33a, steps33b, steps33c, steps33d, List.foldl_cons, List.foldl_nil,
    exec, put, Fin.reduceEq, reduceIte])

theorem pdv33_explicit0 (c : Fin 20 → ℝ) (x y z : ℝ) : pdv33 c x y z 0 =
      0 := by
  pdv33_run

theorem pdv33_explicit1 (c : Fin 20 → ℝ) (x y z : ℝ) : pdv33 c x y z 1 =
      c 1 + c 4 * (2 * x) + c 5 * y + c 6 * z + c 10 * (3 * (x * x)) + c 11 * (2 * (x * y)) +
        c 12 * (2 * (x * z)) + c 13 * (y * y) + c 14 * (y * z) + c 15 * (z * z) := by
  pdv33_run

theorem pdv33_explicit2 (c : Fin 20 → ℝ) (x y z : ℝ) : pdv33 c x y z 2 =
      c 2 + c 5 * x + c 7 * (2 * y) + c 8 * z + c 11 * (x * x) + c 14 * (x * z) +
        c 13 * (2 * (x * y)) + c 16 * (3 * (y * y)) + c 17 * (2 * (y * z)) + c 18 * (z * z) := by
  pdv33_run

theorem pdv33_explicit3 (c : Fin 20 → ℝ) (x y z : ℝ) : pdv33 c x y z 3 =
      c 3 + c 6 * x + c 8 * y + c 9 * (2 * z) + c 12 * (x * x) + c 14 * (x * y) +
        c 15 * (2 * (x * z)) + c 17 * (y * y) + c 18 * (2 * (y * z)) + c 19 * (3 * (z * z)) := by
  pdv33_run

theorem pdv33_explicit4 (c : Fin 20 → ℝ) (x y z : ℝ) : pdv33 c x y z 4 =
      c 4 + c 11 * y + c 12 * z + c 10 * (x * 3) +
        (c 4 + c 11 * y + c 12 * z + c 10 * (x * 3)) := by
  pdv33_run

theorem pdv33_explicit5 (c : Fin 20 → ℝ) (x y z : ℝ) : pdv33 c x y z 5 =
      c 5 + c 11 * (x * 2) + c 13 * (y * 2) + c 14 * z := by
  pdv33_run

theorem pdv33_explicit6 (c : Fin 20 → ℝ) (x y z : ℝ) : pdv33 c x y z 6 =
      c 6 + c 12 * (x * 2) + c 15 * (z * 2) + c 14 * y := by
  pdv33_run

theorem pdv33_explicit7 (c : Fin 20 → ℝ) (x y z : ℝ) : pdv33 c x y z 7 =
      c 7 + c 13 * x + c 17 * z + c 16 * (y * 3) +
        (c 4 + c 11 * y + c 12 * z + c 10 * (x * 3) + (c 4 + c 11 * y + c 12 * z + c 10 * (x * 3))) := by
  pdv33_run

theorem pdv33_explicit8 (c : Fin 20 → ℝ) (x y z : ℝ) : pdv33 c x y z 8 =
      c 8 + c 14 * x + c 17 * (y * 2) + c 18 * (z * 2) := by
  pdv33_run

theorem pdv33_explicit9 (c : Fin 20 → ℝ) (x y z : ℝ) : pdv33 c x y z 9 =
      c 9 + c 15 * x + c 18 * y + c 19 * (z * 3) +
        (c 9 + c 15 * x + c 18 * y + c 19 * (z * 3)) := by
  pdv33_run

theorem pdv33_explicit10 (c : Fin 20 → ℝ) (x y z : ℝ) : pdv33 c x y z 10 =
      c 10 * 6 := by
  pdv33_run

theorem pdv33_explicit11 (c : Fin 20 → ℝ) (x y z : ℝ) : pdv33 c x y z 11 =
      c 11 + c 11 := by
  pdv33_run

theorem pdv33_explicit12 (c : Fin 20 → ℝ) (x y z : ℝ) : pdv33 c x y z 12 =
      c 12 + c 12 := by
  pdv33_run

theorem pdv33_explicit13 (c : Fin 20 → ℝ) (x y z : ℝ) : pdv33 c x y z 13 =
      c 13 + c 13 := by
  pdv33_run

theorem pdv33_explicit14 (c : Fin 20 → ℝ) (x y z : ℝ) : pdv33 c x y z 14 =
      c 14 := by
  pdv33_run

theorem pdv33_explicit15 (c : Fin 20 → ℝ) (x y z : ℝ) : pdv33 c x y z 15 =
      c 15 + c 15 := by
  pdv33_run

theorem pdv33_explicit16 (c : Fin 20 → ℝ) (x y z : ℝ) : pdv33 c x y z 16 =
      c 16 * 6 := by
  pdv33_run

theorem pdv33_explicit17 (c : Fin 20 → ℝ) (x y z : ℝ) : pdv33 c x y z 17 =
      c 17 + c 17 := by
  pdv33_run

theorem pdv33_explicit18 (c : Fin 20 → ℝ) (x y z : ℝ) : pdv33 c x y z 18 =
      c 18 + c 18 := by
  pdv33_run

theorem pdv33_explicit19 (c : Fin 20 → ℝ) (x y z : ℝ) : pdv33 c x y z 19 =
      c 19 * 6 := by
  pdv33_run

theorem pdv33_case1 (c : Fin 20 → ℝ) (x y z : ℝ) : pdv33 c x y z 1 = ∑ i, c i *
      (((expo3 i).1.descFactorial (expo3 1).1 * x ^ ((expo3 i).1 - (expo3 1).1)) *
       ((expo3 i).2.1.descFactorial (expo3 1).2.1 * y ^ ((expo3 i).2.1 - (expo3 1).2.1)) *
       ((expo3 i).2.2.descFactorial (expo3 1).2.2 * z ^ ((expo3 i).2.2 - (expo3 1).2.2))) := by
  rw [pdv33_explicit1]
  simp [expo3, Fin.sum_univ_succ, Fin.succ, -mul_eq_mul_left_iff, -mul_eq_mul_right_iff]
  try ring

theorem pdv33_case2 (c : Fin 20 → ℝ) (x y z : ℝ) : pdv33 c x y z 2 = ∑ i, c i *
      (((expo3 i).1.descFactorial (expo3 2).1 * x ^ ((expo3 i).1 - (expo3 2).1)) *
       ((expo3 i).2.1.descFactorial (expo3 2).2.1 * y ^ ((expo3 i).2.1 - (expo3 2).2.1)) *
       ((expo3 i).2.2.descFactorial (expo3 2).2.2 * z ^ ((expo3 i).2.2 - (expo3 2).2.2))) := by
  rw [pdv33_explicit2]
  simp [expo3, Fin.sum_univ_succ, Fin.succ, -mul_eq_mul_left_iff, -mul_eq_mul_right_iff]
  try ring

theorem pdv33_case3 (c : Fin 20 → ℝ) (x y z : ℝ) : pdv33 c x y z 3 = ∑ i, c i *
      (((expo3 i).1.descFactorial (expo3 3).1 * x ^ ((expo3 i).1 - (expo3 3).1)) *
       ((expo3 i).2.1.descFactorial (expo3 3).2.1 * y ^ ((expo3 i).2.1 - (expo3 3).2.1)) *
       ((expo3 i).2.2.descFactorial (expo3 3).2.2 * z ^ ((expo3 i).2.2 - (expo3 3).2.2))) := by
  rw [pdv33_explicit3]
  simp [expo3, Fin.sum_univ_succ, Fin.succ, -mul_eq_mul_left_iff, -mul_eq_mul_right_iff]
  try ring

theorem pdv33_case4 (c : Fin 20 → ℝ) (x y z : ℝ) : pdv33 c x y z 4 = ∑ i, c i *
      (((expo3 i).1.descFactorial (expo3 4).1 * x ^ ((expo3 i).1 - (expo3 4).1)) *
       ((expo3 i).2.1.descFactorial (expo3 4).2.1 * y ^ ((expo3 i).2.1 - (expo3 4).2.1)) *
       ((expo3 i).2.2.descFactorial (expo3 4).2.2 * z ^ ((expo3 i).2.2 - (expo3 4).2.2))) := by
  rw [pdv33_explicit4]
  simp [expo3, Fin.sum_univ_succ, Fin.succ, -mul_eq_mul_left_iff, -mul_eq_mul_right_iff]
  try ring

theorem pdv33_case5 (c : Fin 20 → ℝ) (x y z : ℝ) : pdv33 c x y z 5 = ∑ i, c i *
      (((expo3 i).1.descFactorial (expo3 5).1 * x ^ ((expo3 i).1 - (expo3 5).1)) *
       ((expo3 i).2.1.descFactorial (expo3 5).2.1 * y ^ ((expo3 i).2.1 - (expo3 5).2.1)) *
       ((expo3 i).2.2.descFactorial (expo3 5).2.2 * z ^ ((expo3 i).2.2 - (expo3 5).2.2))) := by
  rw [pdv33_explicit5]
  simp [expo3, Fin.sum_univ_succ, Fin.succ, -mul_eq_mul_left_iff, -mul_eq_mul_right_iff]
  try ring

theorem pdv33_case6 (c : Fin 20 → ℝ) (x y z : ℝ) : pdv33 c x y z 6 = ∑ i, c i *
      (((expo3 i).1.descFactorial (expo3 6).1 * x ^ ((expo3 i).1 - (expo3 6).1)) *
       ((expo3 i).2.1.descFactorial (expo3 6).2.1 * y ^ ((expo3 i).2.1 - (expo3 6).2.1)) *
       ((expo3 i).2.2.descFactorial (expo3 6).2.2 * z ^ ((expo3 i).2.2 - (expo3 6).2.2))) := by
  rw [pdv33_explicit6]
  simp [expo3, Fin.sum_univ_succ, Fin.succ, -mul_eq_mul_left_iff, -mul_eq_mul_right_iff]
  try ring

theorem pdv33_case7 (c : Fin 20 → ℝ) (x y z : ℝ) : pdv33 c x y z 7 =
      c 7 + c 13 * x + c 17 * z + c 16 * (y * 3) + 2 * (c 4 + c 11 * y + c 12 * z + c 10 * (x * 3)) := by
  rw [pdv33_explicit7]; ring

theorem pdv33_case8 (c : Fin 20 → ℝ) (x y z : ℝ) : pdv33 c x y z 8 = ∑ i, c i *
      (((expo3 i).1.descFactorial (expo3 8).1 * x ^ ((expo3 i).1 - (expo3 8).1)) *
       ((expo3 i).2.1.descFactorial (expo3 8).2.1 * y ^ ((expo3 i).2.1 - (expo3 8).2.1)) *
       ((expo3 i).2.2.descFactorial (expo3 8).2.2 * z ^ ((expo3 i).2.2 - (expo3 8).2.2))) := by
  rw [pdv33_explicit8]
  simp [expo3, Fin.sum_univ_succ, Fin.succ, -mul_eq_mul_left_iff, -mul_eq_mul_right_iff]
  try ring

theorem pdv33_case9 (c : Fin 20 → ℝ) (x y z : ℝ) : pdv33 c x y z 9 = ∑ i, c i *
      (((expo3 i).1.descFactorial (expo3 9).1 * x ^ ((expo3 i).1 - (expo3 9).1)) *
       ((expo3 i).2.1.descFactorial (expo3 9).2.1 * y ^ ((expo3 i).2.1 - (expo3 9).2.1)) *
       ((expo3 i).2.2.descFactorial (expo3 9).2.2 * z ^ ((expo3 i).2.2 - (expo3 9).2.2))) := by
  rw [pdv33_explicit9]
  simp [expo3, Fin.sum_univ_succ, Fin.succ, -mul_eq_mul_left_iff, -mul_eq_mul_right_iff]
  try ring

theorem pdv33_case10 (c : Fin 20 → ℝ) (x y z : ℝ) : pdv33 c x y z 10 = ∑ i, c i *
      (((expo3 i).1.descFactorial (expo3 10).1 * x ^ ((expo3 i).1 - (expo3 10).1)) *
       ((expo3 i).2.1.descFactorial (expo3 10).2.1 * y ^ ((expo3 i).2.1 - (expo3 10).2.1)) *
       ((expo3 i).2.2.descFactorial (expo3 10).2.2 * z ^ ((expo3 i).2.2 - (expo3 10).2.2))) := by
  rw [pdv33_explicit10]
  simp [expo3, Fin.sum_univ_succ, Fin.succ, -mul_eq_mul_left_iff, -mul_eq_mul_right_iff]
  try ring

theorem pdv33_case11 (c : Fin 20 → ℝ) (x y z : ℝ) : pdv33 c x y z 11 = ∑ i, c i *
      (((expo3 i).1.descFactorial (expo3 11).1 * x ^ ((expo3 i).1 - (expo3 11).1)) *
       ((expo3 i).2.1.descFactorial (expo3 11).2.1 * y ^ ((expo3 i).2.1 - (expo3 11).2.1)) *
       ((expo3 i).2.2.descFactorial (expo3 11).2.2 * z ^ ((expo3 i).2.2 - (expo3 11).2.2))) := by
  rw [pdv33_explicit11]
  simp [expo3, Fin.sum_univ_succ, Fin.succ, -mul_eq_mul_left_iff, -mul_eq_mul_right_iff]
  try ring

theorem pdv33_case12 (c : Fin 20 → ℝ) (x y z : ℝ) : pdv33 c x y z 12 = ∑ i, c i *
      (((expo3 i).1.descFactorial (expo3 12).1 * x ^ ((expo3 i).1 - (expo3 12).1)) *
       ((expo3 i).2.1.descFactorial (expo3 12).2.1 * y ^ ((expo3 i).2.1 - (expo3 12).2.1)) *
       ((expo3 i).2.2.descFactorial (expo3 12).2.2 * z ^ ((expo3 i).2.2 - (expo3 12).2.2))) := by
  rw [pdv33_explicit12]
  simp [expo3, Fin.sum_univ_succ, Fin.succ, -mul_eq_mul_left_iff, -mul_eq_mul_right_iff]
  try ring

theorem pdv33_case13 (c : Fin 20 → ℝ) (x y z : ℝ) : pdv33 c x y z 13 = ∑ i, c i *
      (((expo3 i).1.descFactorial (expo3 13).1 * x ^ ((expo3 i).1 - (expo3 13).1)) *
       ((expo3 i).2.1.descFactorial (expo3 13).2.1 * y ^ ((expo3 i).2.1 - (expo3 13).2.1)) *
       ((expo3 i).2.2.descFactorial (expo3 13).2.2 * z ^ ((expo3 i).2.2 - (expo3 13).2.2))) := by
  rw [pdv33_explicit13]
  simp [expo3, Fin.sum_univ_succ, Fin.succ, -mul_eq_mul_left_iff, -mul_eq_mul_right_iff]
  try ring

theorem pdv33_case14 (c : Fin 20 → ℝ) (x y z : ℝ) : pdv33 c x y z 14 = ∑ i, c i *
      (((expo3 i).1.descFactorial (expo3 14).1 * x ^ ((expo3 i).1 - (expo3 14).1)) *
       ((expo3 i).2.1.descFactorial (expo3 14).2.1 * y ^ ((expo3 i).2.1 - (expo3 14).2.1)) *
       ((expo3 i).2.2.descFactorial (expo3 14).2.2 * z ^ ((expo3 i).2.2 - (expo3 14).2.2))) := by
  rw [pdv33_explicit14]
  simp [expo3, Fin.sum_univ_succ, Fin.succ, -mul_eq_mul_left_iff, -mul_eq_mul_right_iff]
  try ring

theorem pdv33_case15 (c : Fin 20 → ℝ) (x y z : ℝ) : pdv33 c x y z 15 = ∑ i, c i *
      (((expo3 i).1.descFactorial (expo3 15).1 * x ^ ((expo3 i).1 - (expo3 15).1)) *
       ((expo3 i).2.1.descFactorial (expo3 15).2.1 * y ^ ((expo3 i).2.1 - (expo3 15).2.1)) *
       ((expo3 i).2.2.descFactorial (expo3 15).2.2 * z ^ ((expo3 i).2.2 - (expo3 15).2.2))) := by
  rw [pdv33_explicit15]
  simp [expo3, Fin.sum_univ_succ, Fin.succ, -mul_eq_mul_left_iff, -mul_eq_mul_right_iff]
  try ring

theorem pdv33_case16 (c : Fin 20 → ℝ) (x y z : ℝ) : pdv33 c x y z 16 = ∑ i, c i *
      (((expo3 i).1.descFactorial (expo3 16).1 * x ^ ((expo3 i).1 - (expo3 16).1)) *
       ((expo3 i).2.1.descFactorial (expo3 16).2.1 * y ^ ((expo3 i).2.1 - (expo3 16).2.1)) *
       ((expo3 i).2.2.descFactorial (expo3 16).2.2 * z ^ ((expo3 i).2.2 - (expo3 16).2.2))) := by
  rw [pdv33_explicit16]
  simp [expo3, Fin.sum_univ_succ, Fin.succ, -mul_eq_mul_left_iff, -mul_eq_mul_right_iff]
  try ring

theorem pdv33_case17 (c : Fin 20 → ℝ) (x y z : ℝ) : pdv33 c x y z 17 = ∑ i, c i *
      (((expo3 i).1.descFactorial (expo3 17).1 * x ^ ((expo3 i).1 - (expo3 17).1)) *
       ((expo3 i).2.1.descFactorial (expo3 17).2.1 * y ^ ((expo3 i).2.1 - (expo3 17).2.1)) *
       ((expo3 i).2.2.descFactorial (expo3 17).2.2 * z ^ ((expo3 i).2.2 - (expo3 17).2.2))) := by
  rw [pdv33_explicit17]
  simp [expo3, Fin.sum_univ_succ, Fin.succ, -mul_eq_mul_left_iff, -mul_eq_mul_right_iff]
  try ring

theorem pdv33_case18 (c : Fin 20 → ℝ) (x y z : ℝ) : pdv33 c x y z 18 = ∑ i, c i *
      (((expo3 i).1.descFactorial (expo3 18).1 * x ^ ((expo3 i).1 - (expo3 18).1)) *
       ((expo3 i).2.1.descFactorial (expo3 18).2.1 * y ^ ((expo3 i).2.1 - (expo3 18).2.1)) *
       ((expo3 i).2.2.descFactorial (expo3 18).2.2 * z ^ ((expo3 i).2.2 - (expo3 18).2.2))) := by
  rw [pdv33_explicit18]
  simp [expo3, Fin.sum_univ_succ, Fin.succ, -mul_eq_mul_left_iff, -mul_eq_mul_right_iff]
  try ring

theorem pdv33_case19 (c : Fin 20 → ℝ) (x y z : ℝ) : pdv33 c x y z 19 = ∑ i, c i *
      (((expo3 i).1.descFactorial (expo3 19).1 * x ^ ((expo3 i).1 - (expo3 19).1)) *
       ((expo3 i).2.1.descFactorial (expo3 19).2.1 * y ^ ((expo3 i).2.1 - (expo3 19).2.1)) *
       ((expo3 i).2.2.descFactorial (expo3 19).2.2 * z ^ ((expo3 i).2.2 - (expo3 19).2.2))) := by
  rw [pdv33_explicit19]
  simp [expo3, Fin.sum_univ_succ, Fin.succ, -mul_eq_mul_left_iff, -mul_eq_mul_right_iff]
  try ring

end MiniCFD.Taylor
