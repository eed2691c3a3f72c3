import Verif.Model.PyPoly
import Verif.Spec.PyPoly
import Verif.Lemmas.FRLine
import Mathlib.Algebra.Polynomial.FieldDivision
import Mathlib.Algebra.Polynomial.RingDivision
import Mathlib.LinearAlgebra.Matrix.ToLinearEquiv
import Mathlib.Analysis.Calculus.Deriv.Comp
import Mathlib.Analysis.Calculus.Deriv.Add
import Mathlib.Analysis.Calculus.Deriv.Mul
import Mathlib.Tactic.Positivity

/-! # Lemmas on the special polynomials -/

namespace MiniCFD.PyPoly
open MiniCFD.Vincent (legendre leg leg_eval dleg dleg_zero dleg_succ dleg_neg dleg_one legendre_one
  legendre_neg hasDerivAt_legendre leg_orthogonal integral integral_add integral_sub integral_C_mul
  integral_zero leg_derivative integral_sum)
open MiniCFD.Spec.PyPoly Polynomial

theorem evalLegendre_nat (n : Nat) (x : ℝ) : evalLegendre n x = legendre n x := rfl

theorem evalLegendre_succ_sub (n : Nat) (x : ℝ) :
    evalLegendre (((n + 1 : Nat) : ℤ) - 1) x = legendre n x := by
  have : ((n + 1 : Nat) : ℤ) - 1 = (n : ℤ) := by push_cast; ring
  rw [this]; rfl

theorem evalLegendre_next (n : Nat) (x : ℝ) : evalLegendre ((n : ℤ) + 1) x = legendre (n + 1) x := by
  have : (n : ℤ) + 1 = ((n + 1 : Nat) : ℤ) := by push_cast; ring
  rw [this]; rfl

theorem evalLegendre_neg_one (x : ℝ) : evalLegendre ((0 : Nat) - 1 : ℤ) x = 1 := by
  have : (((0 : Nat) : ℤ) - 1) = Int.negSucc 0 := rfl
  rw [this]; rfl

/-! ### Radau -/

theorem radau_loop (k : Nat) (x : ℝ) :
    (List.range' 1 (k + 1)).foldl (radauPass x) (0, 0) = (dleg k x, dleg (k + 1) x) := by
  induction k with
  | zero =>
    simp only [zero_add, List.range'_one, List.foldl_cons, List.foldl_nil, radauPass]
    have := evalLegendre_succ_sub 0 x
    simp only [zero_add] at this
    rw [dleg_succ, dleg_zero, this]
    simp
  | succ k ih =>
    rw [List.range'_concat, List.foldl_append, ih]
    simp only [List.foldl_cons, List.foldl_nil, radauPass]
    have e : 1 + 1 * (k + 1) = k + 1 + 1 := by omega
    rw [e, evalLegendre_succ_sub, dleg_succ (k + 1)]
    push_cast
    rfl

/-! ### Vincent -/

theorem vincent_loop (k : Nat) (x : ℝ) :
    (List.range (1 + k)).foldl (vincentPass x) ⟨0, 0, 0⟩ =
      ⟨if k = 0 then 0 else dleg (k - 1) x, dleg k x, dleg (k + 1) x⟩ := by
  induction k with
  | zero =>
    simp [vincentPass, evalLegendre, dleg_succ, dleg_zero]
  | succ k ih =>
    rw [← Nat.add_assoc, List.range_succ, List.foldl_append, ih]
    simp only [List.foldl_cons, List.foldl_nil, vincentPass]
    rw [if_pos (by omega), dleg_succ (k + 1)]
    simp only [Nat.add_comm 1 k, evalLegendre_nat]
    simp

/-! ### Legendre polynomials span -/

theorem leg_coeff_pos (n : Nat) : 0 < (leg n).coeff n := by
  induction n using Nat.strong_induction_on with
  | _ n ih =>
    match n with
    | 0 => simp [leg]
    | 1 => simp [leg]
    | n + 2 =>
      have h1 := ih (n + 1) (by omega)
      have h0 : (leg n).coeff (n + 2) = 0 :=
        coeff_eq_zero_of_natDegree_lt (lt_of_le_of_lt (FR.leg_natDegree n) (by omega))
      rw [leg, coeff_C_mul, coeff_sub, mul_assoc, coeff_C_mul, coeff_C_mul, h0, mul_zero, sub_zero,
        show n + 2 = (n + 1) + 1 from rfl, coeff_X_mul]
      positivity

/-- What is orthogonal to the first `n` Legendre polynomials is orthogonal to all polynomials of
degree below `n`. -/
theorem orthogonal_of_leg (G : ℝ[X]) (n : Nat) (h : ∀ l < n, integral (leg l * G) = 0) (q : ℝ[X])
    (hq : q.degree < n) : integral (q * G) = 0 := by
  induction n generalizing q with
  | zero =>
    have : q = 0 := by
      by_contra h0
      exact absurd hq (by rw [degree_eq_natDegree h0]; simp)
    rw [this, zero_mul, integral_zero]
  | succ n ih =>
    have hc := leg_coeff_pos n
    set c := q.coeff n / (leg n).coeff n with hcd
    have hq' : (q - C c * leg n).degree < n := by
      rw [degree_lt_iff_coeff_zero]
      intro m hm
      rw [coeff_sub, coeff_C_mul]
      rcases Nat.eq_or_lt_of_le hm with rfl | hlt
      · rw [hcd, div_mul_cancel₀ _ hc.ne', sub_self]
      · rw [(degree_lt_iff_coeff_zero q (n + 1)).1 hq m hlt,
          coeff_eq_zero_of_natDegree_lt (lt_of_le_of_lt (FR.leg_natDegree n) hlt), mul_zero, sub_zero]
    have e : q * G = (q - C c * leg n) * G + C c * (leg n * G) := by ring
    rw [e, integral_add, integral_C_mul, ih (fun l hl => h l (by omega)) _ hq', h n (by omega)]
    ring

/-! ### Huynh -/

/-- The polynomial with the given coefficients. -/
noncomputable def coeffPoly {n : Nat} (coeff : Fin n → ℝ) : ℝ[X] := ∑ i, C (coeff i) * X ^ i.val

theorem coeffPoly_eval {n : Nat} (coeff : Fin n → ℝ) (x : ℝ) :
    (coeffPoly coeff).eval x = huynhRight coeff x := by
  simp [coeffPoly, huynhRight, eval_finsetSum]

theorem coeffPoly_natDegree {d : Nat} (coeff : Fin (d + 1) → ℝ) : (coeffPoly coeff).natDegree ≤ d := by
  refine natDegree_sum_le_of_forall_le _ _ fun i _ => ?_
  exact le_trans (natDegree_C_mul_X_pow_le _ _) (by omega)

theorem coeffPoly_coeff {n : Nat} (coeff : Fin n → ℝ) (i : Fin n) :
    (coeffPoly coeff).coeff i.val = coeff i := by
  rw [coeffPoly, finset_sum_coeff, Finset.sum_eq_single i]
  · simp
  · intro j _ hj
    simp only [coeff_C_mul, coeff_X_pow]
    rw [if_neg (fun h => hj (Fin.ext h.symm)), mul_zero]
  · simp

theorem coeffPoly_surj {d : Nat} (p : ℝ[X]) (hp : p.natDegree ≤ d) :
    p = coeffPoly fun i : Fin (d + 1) => p.coeff i.val := by
  ext m
  by_cases hm : m < d + 1
  · exact (coeffPoly_coeff (fun i : Fin (d + 1) => p.coeff i.val) ⟨m, hm⟩).symm
  · rw [coeff_eq_zero_of_natDegree_lt (by omega), coeff_eq_zero_of_natDegree_lt]
    exact lt_of_le_of_lt (coeffPoly_natDegree _) (by omega)

theorem iterate_derivative_pow_eval (i l : Nat) (x : ℝ) :
    (derivative^[l] (X ^ i : ℝ[X])).eval x =
      if l ≤ i then x ^ (i - l) * ((i.factorial : ℝ) / ((i - l).factorial : ℝ)) else 0 := by
  rw [iterate_derivative_X_pow_eq_natCast_mul, eval_mul, eval_natCast, eval_pow, eval_X]
  split_ifs with h
  · have : (i.descFactorial l : ℝ) = (i.factorial : ℝ) / ((i - l).factorial : ℝ) := by
      rw [eq_div_iff (by positivity), mul_comm]
      exact_mod_cast Nat.factorial_mul_descFactorial h
    rw [this, mul_comm]
  · rw [Nat.descFactorial_eq_zero_iff_lt.2 (by omega)]; simp

theorem coeffPoly_derivatives {n : Nat} (coeff : Fin n → ℝ) (l : Nat) (x : ℝ) :
    (derivative^[l] (coeffPoly coeff)).eval x = ∑ i : Fin n, coeff i *
      if l ≤ i.val then x ^ (i.val - l) * ((i.val.factorial : ℝ) / ((i.val - l).factorial : ℝ)) else 0 := by
  rw [coeffPoly, Lagrange.iterate_derivative_sum', eval_finsetSum]
  refine Finset.sum_congr rfl fun i _ => ?_
  rw [iterate_derivative_C_mul, eval_mul, eval_C, iterate_derivative_pow_eval]

open scoped Matrix in
/-- What the rows of the matrix say about the polynomial. -/
theorem huynh_rows {d m : Nat} (hd : 1 ≤ d) (hm : 1 ≤ m) {roots : Roots d} (hr : GaussLegendre roots.x roots.w)
    (coeff : Fin (d + 1) → ℝ) (l : Fin (d + 1)) :
    (huynhMatrix d m roots *ᵥ coeff) l =
      if l.val < m then (derivative^[l.val] (coeffPoly coeff)).eval (-1)
      else if l.val < d then integral (leg (l.val - m) * coeffPoly coeff)
      else (coeffPoly coeff).eval 1 := by
  rw [Matrix.mulVec, dotProduct]
  simp only [huynhMatrix]
  split_ifs with h1 h2
  · rw [coeffPoly_derivatives]
    exact Finset.sum_congr rfl fun i _ => mul_comm _ _
  · have hdeg : (leg (l.val - m) * coeffPoly coeff).natDegree ≤ 2 * d - 1 := by
      refine le_trans natDegree_mul_le ?_
      have := FR.leg_natDegree (l.val - m)
      have := coeffPoly_natDegree coeff
      omega
    have := hr _ hdeg
    rw [integral, ← this]
    simp only [eval_mul, leg_eval, coeffPoly_eval, huynhRight, evalLegendre_nat, Finset.sum_mul,
      Finset.mul_sum]
    rw [Finset.sum_comm]
    refine Finset.sum_congr rfl fun q _ => Finset.sum_congr rfl fun i _ => ?_
    ring
  · rw [coeffPoly_eval, huynhRight]
    simp

/-- A polynomial that is zero against a positive weight is zero. -/
theorem zero_of_weighted (m : Nat) (H : ℝ[X]) (h : integral ((1 + X) ^ m * (1 - X) * H ^ 2) = 0) :
    H = 0 := by
  by_contra h0
  have hcont := ((1 + X) ^ m * (1 - X) * H ^ 2 : ℝ[X]).continuous
  have hnn : ∀ x ∈ Set.Ioc (-1 : ℝ) 1, 0 ≤ ((1 + X) ^ m * (1 - X) * H ^ 2 : ℝ[X]).eval x := by
    intro x hx
    simp only [eval_mul, eval_pow, eval_add, eval_sub, eval_one, eval_X]
    have h1 : 0 ≤ 1 + x := by linarith [hx.1]
    have h2 : 0 ≤ 1 - x := by linarith [hx.2]
    positivity
  -- a point inside where the integrand is positive
  obtain ⟨c, hc, hHc⟩ : ∃ c ∈ Set.Ioo (-1 : ℝ) 1, H.eval c ≠ 0 := by
    by_contra hne
    push Not at hne
    refine h0 (eq_zero_of_infinite_isRoot H (Set.Infinite.mono (s := Set.Ioo (-1 : ℝ) 1) ?_
      (Set.Ioo_infinite (by norm_num))))
    intro x hx
    exact hne x hx
  have hpos : 0 < integral ((1 + X) ^ m * (1 - X) * H ^ 2) := by
    unfold integral
    refine intervalIntegral.integral_pos (by norm_num) hcont.continuousOn hnn ⟨c, ⟨hc.1.le, hc.2.le⟩, ?_⟩
    simp only [eval_mul, eval_pow, eval_add, eval_sub, eval_one, eval_X]
    have h1 : 0 < 1 + c := by linarith [hc.1]
    have h2 : 0 < 1 - c := by linarith [hc.2]
    positivity
  exact absurd h hpos.ne'

/-- The homogeneous conditions have only the zero solution. -/
theorem huynh_kernel {d m : Nat} (hm : m ≤ d) (G : ℝ[X]) (hG : G.natDegree ≤ d)
    (hl : Lumped G m) (ho : ∀ l < d - m, integral (leg l * G) = 0) (h1 : G.eval 1 = 0) : G = 0 := by
  by_contra h0
  have hd1 : (X - C (-1)) ^ m ∣ G := by
    cases m with
    | zero => simp
    | succ m =>
      have : m < rootMultiplicity (-1) G :=
        lt_rootMultiplicity_of_isRoot_iterate_derivative h0 fun l hlm => hl l (by omega)
      exact (le_rootMultiplicity_iff h0).1 this
  have hd2 : (X - C 1) ∣ G := dvd_iff_isRoot.2 h1
  have hcop : IsCoprime ((X - C (-1)) ^ m : ℝ[X]) (X - C 1) :=
    IsCoprime.pow_left (isCoprime_X_sub_C_of_isUnit_sub (by norm_num))
  obtain ⟨H, hH⟩ := hcop.mul_dvd hd1 hd2
  have hH0 : H ≠ 0 := by rintro rfl; simp at hH; exact h0 hH
  have hdeg : G.natDegree = m + 1 + H.natDegree := by
    rw [hH, natDegree_mul (mul_ne_zero (pow_ne_zero _ (X_sub_C_ne_zero _)) (X_sub_C_ne_zero _)) hH0,
      natDegree_mul (pow_ne_zero _ (X_sub_C_ne_zero _)) (X_sub_C_ne_zero _), natDegree_pow,
      natDegree_X_sub_C, natDegree_X_sub_C]
    ring
  have hq : H.degree < (d - m : Nat) := by
    rw [degree_eq_natDegree hH0]
    exact_mod_cast (by omega)
  have hz := orthogonal_of_leg G (d - m) ho H hq
  refine hH0 (zero_of_weighted m H ?_)
  have e : ((1 + X) ^ m * (1 - X) * H ^ 2 : ℝ[X]) = C (-1) * (H * G) := by
    rw [hH]
    simp only [C_neg, C_1]
    ring
  rw [e, integral_C_mul, hz, mul_zero]

/-! ### Lagrange -/

theorem foldl_mul_skip {n : Nat} (p : Fin n → Prop) [DecidablePred p] (f : Fin n → ℝ) (l : List (Fin n)) (v : ℝ) :
    l.foldl (fun v k => if p k then v else v * f k) v = v * (l.map fun k => if p k then 1 else f k).prod := by
  induction l generalizing v with
  | nil => simp
  | cons a l ih =>
    rw [List.foldl_cons, ih, List.map_cons, List.prod_cons]
    by_cases h : p a <;> simp [h, mul_assoc]

theorem foldl_add_skip {n : Nat} (p : Fin n → Prop) [DecidablePred p] (f : Fin n → ℝ) (l : List (Fin n)) (v : ℝ) :
    l.foldl (fun v k => if p k then v else v + f k) v = v + (l.map fun k => if p k then 0 else f k).sum := by
  induction l generalizing v with
  | nil => simp
  | cons a l ih =>
    rw [List.foldl_cons, ih, List.map_cons, List.sum_cons]
    by_cases h : p a <;> simp [h, add_assoc]

theorem foldl_pair {n : Nat} (p : Fin n → Prop) [DecidablePred p] (f g : Fin n → ℝ) (l : List (Fin n)) (s : ℝ × ℝ) :
    l.foldl (fun (s : ℝ × ℝ) k => if p k then s else (s.1 * f k, s.2 * g k)) s =
      (s.1 * (l.map fun k => if p k then 1 else f k).prod, s.2 * (l.map fun k => if p k then 1 else g k).prod) := by
  induction l generalizing s with
  | nil => simp
  | cons a l ih =>
    rw [List.foldl_cons, ih, List.map_cons, List.prod_cons, List.map_cons, List.prod_cons]
    by_cases h : p a <;> simp [h, mul_assoc]

theorem finRange_prod {n : Nat} (f : Fin n → ℝ) : ((List.finRange n).map f).prod = ∏ k, f k := by
  rw [← List.ofFn_eq_map, List.prod_ofFn]

theorem finRange_sum {n : Nat} (f : Fin n → ℝ) : ((List.finRange n).map f).sum = ∑ k, f k := by
  rw [← List.ofFn_eq_map, List.sum_ofFn]

open MiniCFD.Spec.Lagrange in
theorem lagrangeValue_eq {n : Nat} (points : Fin n → ℝ) (i : Fin n) (x : ℝ) :
    lagrangeValue points i x = (basisPoly points i).eval x := by
  rw [← Lagrange.lineValues_eq, Lagrange.lineValues, Lagrange.valueLoop, lagrangeValue]
  congr 1
  funext v j
  by_cases h : j = i
  · subst h; simp
  · rw [if_neg h, if_pos (fun e => h e.symm)]

open MiniCFD.Spec.Lagrange in
theorem lagrangeGradient_eq {n : Nat} (points : Fin n → ℝ) (i : Fin n) (x : ℝ) :
    lagrangeGradient points i x = (derivative (basisPoly points i)).eval x := by
  classical
  have e : ∀ j, (_root_.Lagrange.basisDivisor (points i) (points j)).eval x =
      (x - points j) / (points i - points j) := by
    intro j
    simp [_root_.Lagrange.basisDivisor]
    field_simp
  have ed : ∀ j, (derivative (_root_.Lagrange.basisDivisor (points i) (points j))).eval x =
      1 / (points i - points j) := by
    intro j
    simp [_root_.Lagrange.basisDivisor]
  rw [basisPoly, _root_.Lagrange.basis, derivative_prod_finset, eval_finsetSum]
  simp only [eval_mul, eval_prod, e, ed]
  rw [lagrangeGradient, foldl_add_skip (fun j => j = i), zero_add, finRange_sum,
    ← Finset.sum_erase_add _ _ (Finset.mem_univ i), if_pos rfl, add_zero]
  refine Finset.sum_congr rfl fun j hj => ?_
  have hji : j ≠ i := (Finset.mem_erase.1 hj).1
  rw [if_neg hji]
  rw [foldl_pair (fun k => k = i ∨ k = j), finRange_prod, finRange_prod]
  have hs : ∀ f : Fin n → ℝ, ∏ k, (if k = i ∨ k = j then 1 else f k) =
      ∏ k ∈ (Finset.univ.erase i).erase j, f k := by
    intro f
    rw [← Finset.prod_subset (Finset.subset_univ ((Finset.univ.erase i).erase j))]
    · refine Finset.prod_congr rfl fun k hk => ?_
      simp only [Finset.mem_erase, Finset.mem_univ, and_true] at hk
      rw [if_neg (by tauto)]
    · intro k _ hk
      simp only [Finset.mem_erase, Finset.mem_univ, and_true] at hk
      rw [if_pos (by tauto)]
  rw [hs, hs, Finset.prod_div_distrib]
  simp only [one_mul, one_div, div_eq_mul_inv, mul_inv]
  ring

end MiniCFD.PyPoly
