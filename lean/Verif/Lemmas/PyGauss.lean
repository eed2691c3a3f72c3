import Verif.Lemmas.PyExpansion
import Mathlib.Topology.Order.IntermediateValue
import Mathlib.LinearAlgebra.Lagrange

/-! The rules of Gauss exist for all numbers of points: the Legendre polynomial has enough roots. -/

namespace MiniCFD.PyQuad

open Polynomial MeasureTheory
open MiniCFD.Vincent (leg leg_eval)
open MiniCFD.Spec.Gauss (ExactTo)

/-- A polynomial without roots between two points has one sign there. -/
theorem one_sign (q : ℝ[X]) {a b : ℝ} (h : ∀ x, a < x → x < b → q.eval x ≠ 0) :
    (∀ x, a < x → x < b → 0 ≤ q.eval x) ∨ ∀ x, a < x → x < b → q.eval x ≤ 0 := by
  by_contra hn
  push Not at hn
  obtain ⟨⟨x, hx1, hx2, hx⟩, y, hy1, hy2, hy⟩ := hn
  have hmem : (0 : ℝ) ∈ Set.uIcc (q.eval x) (q.eval y) := by
    rw [Set.mem_uIcc]; exact .inl ⟨hx.le, hy.le⟩
  obtain ⟨z, hz, hz0⟩ := intermediate_value_uIcc (q.continuous.continuousOn (s := Set.uIcc x y)) hmem
  rw [Set.mem_uIcc] at hz
  exact h z (by rcases hz with hz | hz <;> linarith [hz.1]) (by rcases hz with hz | hz <;> linarith [hz.2]) hz0

/-- The points where a polynomial changes its sign. -/
theorem sign_changes (a b : ℝ) : ∀ (n : ℕ) (q : ℝ[X]), q ≠ 0 → q.natDegree ≤ n → ∃ S : Finset ℝ,
    (∀ r ∈ S, a < r ∧ r < b ∧ q.eval r = 0) ∧
    ((∀ x, a < x → x < b → 0 ≤ (q * ∏ r ∈ S, (X - C r)).eval x) ∨ ∀ x, a < x → x < b → (q * ∏ r ∈ S, (X - C r)).eval x ≤ 0) := by
  intro n
  induction n with
  | zero =>
    intro q hq hd
    refine ⟨∅, by simp, ?_⟩
    simp only [Finset.prod_empty, mul_one]
    refine one_sign q fun x _ _ hx => hq ?_
    rw [eq_C_of_natDegree_le_zero hd] at hx ⊢
    simpa using hx
  | succ n ih =>
    intro q hq hd
    by_cases hr : ∃ r, a < r ∧ r < b ∧ q.eval r = 0
    · obtain ⟨r, h1, h2, h3⟩ := hr
      obtain ⟨g, rfl⟩ := dvd_iff_isRoot.mpr h3
      have hg : g ≠ 0 := by rintro rfl; simp at hq
      have hdeg : g.natDegree ≤ n := by
        rw [natDegree_mul (X_sub_C_ne_zero r) hg, natDegree_X_sub_C] at hd
        omega
      obtain ⟨S, hS, hsign⟩ := ih g hg hdeg
      by_cases hrS : r ∈ S
      · refine ⟨S.erase r, fun y hy => ?_, ?_⟩
        · obtain ⟨y1, y2, y3⟩ := hS y (Finset.mem_of_mem_erase hy)
          exact ⟨y1, y2, by rw [eval_mul, y3, mul_zero]⟩
        · have e : (X - C r) * g * ∏ y ∈ S.erase r, (X - C y) = g * ∏ y ∈ S, (X - C y) := by
            rw [← Finset.mul_prod_erase S _ hrS]; ring
          rw [e]; exact hsign
      · refine ⟨insert r S, fun y hy => ?_, ?_⟩
        · rcases Finset.mem_insert.mp hy with rfl | hy
          · exact ⟨h1, h2, h3⟩
          · obtain ⟨y1, y2, y3⟩ := hS y hy
            exact ⟨y1, y2, by rw [eval_mul, y3, mul_zero]⟩
        · have e : (X - C r) * g * ∏ y ∈ insert r S, (X - C y) = (X - C r) ^ 2 * (g * ∏ y ∈ S, (X - C y)) := by
            rw [Finset.prod_insert hrS]; ring
          rw [e]
          rcases hsign with hs | hs
          · refine .inl fun x hx1 hx2 => ?_
            rw [eval_mul, eval_pow]
            exact mul_nonneg (sq_nonneg _) (hs x hx1 hx2)
          · refine .inr fun x hx1 hx2 => ?_
            rw [eval_mul, eval_pow]
            exact mul_nonpos_of_nonneg_of_nonpos (sq_nonneg _) (hs x hx1 hx2)
    · push Not at hr
      refine ⟨∅, by simp, ?_⟩
      simp only [Finset.prod_empty, mul_one]
      exact one_sign q hr

/-- A nonzero polynomial of one sign has a nonzero integral. -/
theorem integral_one_sign {a b : ℝ} (hab : a < b) {q : ℝ[X]} (hq : q ≠ 0)
    (h : ∀ x, a < x → x < b → 0 ≤ q.eval x) : 0 < ∫ x in a..b, q.eval x := by
  have hcl : ∀ x ∈ Set.Icc a b, 0 ≤ q.eval x := by
    have hc : IsClosed {x | 0 ≤ q.eval x} := isClosed_le continuous_const q.continuous
    have : closure (Set.Ioo a b) ⊆ {x | 0 ≤ q.eval x} := closure_minimal (fun x hx => h x hx.1 hx.2) hc
    rw [closure_Ioo hab.ne] at this
    exact this
  obtain ⟨x, hx, hne⟩ : ∃ x ∈ Set.Ioo a b, q.eval x ≠ 0 := by
    by_contra hn
    push Not at hn
    refine hq (eq_zero_of_infinite_isRoot q ?_)
    exact (Set.Ioo_infinite hab).mono hn
  refine intervalIntegral.integral_pos hab q.continuous.continuousOn (fun y hy => hcl y ⟨hy.1.le, hy.2⟩)
    ⟨x, ⟨hx.1.le, hx.2.le⟩, lt_of_le_of_ne (hcl x ⟨hx.1.le, hx.2.le⟩) (Ne.symm hne)⟩

/-- The Legendre polynomial of degree `n` has `n` roots in `(-1, 1)`. -/
theorem legendre_roots (n : ℕ) : ∃ S : Finset ℝ, S.card = n ∧ ∀ r ∈ S, -1 < r ∧ r < 1 ∧ (leg n).eval r = 0 := by
  have hne : leg n ≠ 0 := by
    intro h0
    have := PyExpansion.leg_norm n
    rw [h0] at this
    simp only [Vincent.integral, mul_zero, eval_zero, intervalIntegral.integral_zero] at this
    have hp : (0 : ℝ) < 2 / (2 * n + 1) := by positivity
    linarith
  obtain ⟨S, hS, hsign⟩ := sign_changes (-1) 1 _ (leg n) hne le_rfl
  have hprod : (∏ r ∈ S, (X - C r) : ℝ[X]) ≠ 0 := Finset.prod_ne_zero_iff.2 fun y _ => X_sub_C_ne_zero y
  have hdeg : (∏ r ∈ S, (X - C r) : ℝ[X]).natDegree = S.card := natDegree_finsetProd_X_sub_C_eq_card S (fun y => y)
  have hle : S.card ≤ n := by
    have : S.val ≤ (leg n).roots := by
      refine (Multiset.le_iff_subset S.nodup).mpr fun r hr => ?_
      rw [mem_roots hne]
      exact (hS r hr).2.2
    exact (Multiset.card_le_card this).trans ((card_roots' _).trans (FR.leg_natDegree n))
  refine ⟨S, le_antisymm hle ?_, hS⟩
  by_contra hlt
  have h0 : ∫ ξ in (-1 : ℝ)..1, (leg n * ∏ r ∈ S, (X - C r)).eval ξ = 0 := by
    refine Vincent.leg_orthogonal n _ (lt_of_le_of_lt degree_le_natDegree ?_)
    rw [hdeg]; exact_mod_cast (by omega : S.card < n)
  rcases hsign with hs | hs
  · exact (integral_one_sign (by norm_num) (mul_ne_zero hne hprod) hs).ne' h0
  · have := integral_one_sign (q := -(leg n * ∏ r ∈ S, (X - C r))) (a := -1) (b := 1) (by norm_num)
      (neg_ne_zero.mpr (mul_ne_zero hne hprod)) (fun x h1 h2 => by rw [eval_neg]; linarith [hs x h1 h2])
    simp only [eval_neg, intervalIntegral.integral_neg] at this
    linarith

/-- For every number of points there is a rule with the exactness of Gauss. -/
theorem gauss_exists (m : ℕ) : ∃ r : Rule m, ExactTo r.apply (2 * m + 1) := by
  obtain ⟨S, hcard, hS⟩ := legendre_roots (m + 1)
  obtain ⟨e⟩ : Nonempty (Fin (m + 1) ≃ S) := ⟨(Fintype.equivFinOfCardEq (by simp [hcard])).symm⟩
  set x : Fin (m + 1) → ℝ := fun i => e i with hx
  have hinj : Function.Injective x := fun i j h => e.injective (Subtype.ext h)
  have hroot : ∀ i, (leg (m + 1)).eval (x i) = 0 := fun i => (hS _ (e i).2).2.2
  refine ⟨⟨x, fun i => ∫ y in (-1 : ℝ)..1, (Lagrange.basis Finset.univ x i).eval y⟩, fun q hq => ?_⟩
  have hne : leg (m + 1) ≠ 0 := by
    intro h0
    have := PyExpansion.leg_norm (m + 1)
    rw [h0] at this
    simp only [Vincent.integral, mul_zero, eval_zero, intervalIntegral.integral_zero] at this
    have hp : (0 : ℝ) < 2 / (2 * ((m + 1 : ℕ) : ℝ) + 1) := by positivity
    linarith
  have hprod : ∏ i, (X - C (x i)) ∣ leg (m + 1) := by
    refine Finset.prod_dvd_of_coprime (fun i _ j _ hij => ?_) fun i _ => dvd_iff_isRoot.mpr (hroot i)
    exact pairwise_coprime_X_sub_C hinj hij
  have hdl : (leg (m + 1)).natDegree = m + 1 := by
    refine le_antisymm (FR.leg_natDegree _) ?_
    have h1 := natDegree_le_of_dvd hprod hne
    rw [natDegree_prod _ _ (fun i _ => X_sub_C_ne_zero _)] at h1
    simpa using h1
  have hdl' : (leg (m + 1)).degree = (m + 1 : ℕ) := by rw [degree_eq_natDegree hne, hdl]
  have hdiv := EuclideanDomain.div_add_mod q (leg (m + 1))
  set g := q / leg (m + 1) with hg
  set r := q % leg (m + 1) with hr
  have hrd : r.degree < (m + 1 : ℕ) := by
    rw [← hdl']; exact EuclideanDomain.mod_lt q hne
  have hgd : g.degree < (m + 1 : ℕ) := by
    by_cases hg0 : g = 0
    · rw [hg0, degree_zero]; exact WithBot.bot_lt_coe _
    · have : (leg (m + 1) * g).natDegree ≤ 2 * m + 1 := by
        have : leg (m + 1) * g = q - r := by rw [← hdiv]; ring
        rw [this]
        refine (natDegree_sub_le _ _).trans (max_le hq ?_)
        by_cases hr0 : r = 0
        · rw [hr0]; simp
        · rw [degree_eq_natDegree hr0] at hrd
          have : r.natDegree < m + 1 := by exact_mod_cast hrd
          omega
      rw [natDegree_mul hne hg0, hdl] at this
      rw [degree_eq_natDegree hg0]
      exact_mod_cast (by omega : g.natDegree < m + 1)
  have hint : ∫ y in (-1 : ℝ)..1, q.eval y = ∫ y in (-1 : ℝ)..1, r.eval y := by
    have h0 : ∫ ξ in (-1 : ℝ)..1, (leg (m + 1) * g).eval ξ = 0 := Vincent.leg_orthogonal (m + 1) g (by exact_mod_cast hgd)
    rw [← hdiv]
    simp only [eval_add]
    rw [intervalIntegral.integral_add ((leg (m + 1) * g).continuous.intervalIntegrable _ _) (r.continuous.intervalIntegrable _ _),
      h0, zero_add]
  have hval : ∀ i, q.eval (x i) = r.eval (x i) := by
    intro i
    rw [← hdiv, eval_add, eval_mul, hroot, zero_mul, zero_add]
  have hlag : r = Lagrange.interpolate Finset.univ x fun i => r.eval (x i) := by
    refine Lagrange.eq_interpolate hinj.injOn ?_
    simpa using hrd
  rw [hint]
  simp only [Rule.apply, hval]
  have hr2 : ∀ y, r.eval y = ∑ i, r.eval (x i) * (Lagrange.basis Finset.univ x i).eval y := by
    intro y
    conv_lhs => rw [hlag]
    rw [Lagrange.interpolate_apply, eval_finsetSum]
    simp
  have hr3 : (∫ y in (-1 : ℝ)..1, r.eval y) = ∫ y in (-1 : ℝ)..1, ∑ i, r.eval (x i) * (Lagrange.basis Finset.univ x i).eval y := by
    congr 1
    funext y
    exact hr2 y
  rw [hr3, intervalIntegral.integral_finset_sum]
  · refine Finset.sum_congr rfl fun i _ => ?_
    rw [intervalIntegral.integral_const_mul, mul_comm]
  · intro i _
    exact (continuous_const.mul (Lagrange.basis Finset.univ x i).continuous).intervalIntegrable _ _

end MiniCFD.PyQuad
