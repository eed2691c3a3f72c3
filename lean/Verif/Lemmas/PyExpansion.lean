import Verif.Model.PyExpansion
import Verif.Props.PyPoly
import Verif.Props.PyQuad
import Verif.Lemmas.FR
import Mathlib.LinearAlgebra.Vandermonde
import Mathlib.LinearAlgebra.Matrix.Block
import Mathlib.Analysis.Calculus.IteratedDeriv.Defs
import Mathlib.Analysis.Calculus.Deriv.Pow
import Mathlib.Analysis.Calculus.Deriv.Mul
import Mathlib.Analysis.Calculus.Deriv.Add
import Mathlib.Analysis.Calculus.Deriv.Comp
import Mathlib.Data.Nat.Factorial.Basic
import Mathlib.MeasureTheory.Integral.IntervalIntegral.Basic

/-! Helper lemmas about the expansions of the Python code. -/

namespace MiniCFD.PyExpansion
open MiniCFD.PyQuad Polynomial
open MiniCFD.Vincent (leg leg_eval)
open MiniCFD.Spec.Gauss (ExactTo)

/-! ### The Taylor basis -/

theorem xPower_eq (dx : ℝ) (k : ℕ) : xPower dx k = dx ^ k := by
  induction k with
  | zero => rfl
  | succ k ih => rw [xPower, ih, pow_succ]

theorem taylorValues_eq (c x : ℝ) (k : ℕ) : taylorValues c x k = (x - c) ^ k := xPower_eq _ _

theorem factorials_eq (k : ℕ) : factorials k = k.factorial := by
  induction k with
  | zero => simp [factorials]
  | succ k ih => rw [factorials, ih, Nat.factorial_succ]; push_cast; ring

theorem taylorDerivatives_eq (c x : ℝ) (k l : ℕ) :
    taylorDerivatives c x k l = l.descFactorial k * (x - c) ^ (l - k) := by
  unfold taylorDerivatives
  split_ifs with h0 h1
  · subst h0; rw [taylorValues_eq]; simp
  · rw [Nat.descFactorial_of_lt h1]; simp
  · rw [factorials_eq, factorials_eq, ← Nat.factorial_mul_descFactorial (not_lt.1 h1)]
    have : ((l - k).factorial : ℝ) ≠ 0 := by exact_mod_cast Nat.factorial_ne_zero _
    push_cast
    field_simp

theorem taylorGradients_eq (c x : ℝ) (l : ℕ) : taylorGradients c x l = taylorDerivatives c x 1 l := by
  rw [taylorDerivatives_eq, taylorGradients, Nat.descFactorial_one]
  split_ifs with h
  · simp [h]
  · rw [xPower_eq]

theorem taylorHessians_eq (c x : ℝ) (l : ℕ) : taylorHessians c x l = taylorDerivatives c x 2 l := by
  rw [taylorDerivatives_eq, taylorHessians]
  split_ifs with h
  · rw [Nat.descFactorial_of_lt (by omega)]; simp
  · obtain ⟨m, rfl⟩ := Nat.exists_eq_add_of_le (not_le.1 h)
    rw [xPower_eq]
    simp only [Nat.descFactorial]
    push_cast [show 1 + 1 + m - 1 = m + 1 by omega, show 1 + 1 + m - 0 = m + 2 by omega]
    ring_nf

theorem hasDerivAt_taylor (c : ℝ) (k l : ℕ) (x : ℝ) :
    HasDerivAt (fun x => taylorDerivatives c x k l) (taylorDerivatives c x (k + 1) l) x := by
  simp only [taylorDerivatives_eq]
  have h := (((hasDerivAt_id x).sub_const c).pow (l - k)).const_mul (l.descFactorial k : ℝ)
  refine h.congr_deriv ?_
  rw [Nat.descFactorial_succ]
  push_cast
  simp only [id, mul_one, Nat.sub_sub]
  ring

/-- Combinations of a family that differentiates into itself. -/
theorem iteratedDeriv_family {V : Type*} [NormedAddCommGroup V] [NormedSpace ℝ V] (F : ℕ → ℝ → V)
    (h : ∀ k x, HasDerivAt (F k) (F (k + 1) x) x) (k : ℕ) : iteratedDeriv k (F 0) = F k := by
  induction k with
  | zero => exact iteratedDeriv_zero
  | succ k ih => rw [iteratedDeriv_succ, ih]; exact funext fun x => (h k x).deriv

/-! ### Polynomials with given Taylor coefficients -/

noncomputable def tpoly {p : ℕ} (c : ℝ) (t : Fin (p + 1) → ℝ) : ℝ[X] :=
  (PyPoly.coeffPoly t).comp (X - C c)

theorem tpoly_eval {p : ℕ} (c : ℝ) (t : Fin (p + 1) → ℝ) (x : ℝ) :
    (tpoly c t).eval x = ∑ l : Fin (p + 1), taylorValues c x l * t l := by
  rw [tpoly, eval_comp, PyPoly.coeffPoly_eval]
  refine Finset.sum_congr rfl fun l _ => ?_
  rw [taylorValues_eq]
  simp [mul_comm]

theorem tpoly_natDegree {p : ℕ} (c : ℝ) (t : Fin (p + 1) → ℝ) : (tpoly c t).natDegree ≤ p := by
  refine natDegree_comp_le.trans ?_
  rw [natDegree_X_sub_C, mul_one]
  exact PyPoly.coeffPoly_natDegree t

theorem tpoly_surj {p : ℕ} (c : ℝ) (q : ℝ[X]) (hq : q.natDegree ≤ p) :
    ∃ t : Fin (p + 1) → ℝ, tpoly c t = q := by
  have hd : (q.comp (X + C c)).natDegree ≤ p := by
    refine natDegree_comp_le.trans ?_
    rw [natDegree_X_add_C, mul_one]; exact hq
  refine ⟨fun i => (q.comp (X + C c)).coeff i, ?_⟩
  rw [tpoly, ← PyPoly.coeffPoly_surj _ hd, comp_assoc]
  simp

/-- What all constructors establish. -/
structure Sane {p : ℕ} (s : Setup p) : Prop where
  width : s.coordinate.xLeft < s.coordinate.xRight
  toFrom : s.toTaylor * s.fromTaylor = 1
  fromTo : s.fromTaylor * s.toTaylor = 1
  basis : ∀ x i, s.basisValues x i = ∑ l : Fin (p + 1), taylorValues s.coordinate.xCenter x l * s.toTaylor l i

/-! ### Lagrange -/

theorem baseRows_det {p : ℕ} {c : Coordinate} (hc : c.xLeft < c.xRight) (nodes : Fin (p + 1) → ℝ) :
    (Matrix.det fun i k : Fin (p + 1) => taylorValues c.xCenter (samplePoints c nodes i) k) ≠ 0 ↔
      Function.Injective nodes := by
  have e : (fun i k : Fin (p + 1) => taylorValues c.xCenter (samplePoints c nodes i) k) =
      Matrix.vandermonde fun i => samplePoints c nodes i - c.xCenter := by
    funext i k
    rw [taylorValues_eq]; rfl
  obtain ⟨h1, h2, _⟩ := coordinate_spec c hc
  rw [e, Matrix.det_vandermonde_ne_zero_iff]
  constructor
  · intro h i j hij
    exact h (by simp only [samplePoints, hij])
  · intro h i j hij
    have : c.localToGlobal (nodes i) = c.localToGlobal (nodes j) := by
      simpa [samplePoints] using hij
    exact h (by rw [← h1 (nodes i), this, h1])

theorem lagrange_defined {p : ℕ} (kind : Kind) {c : Coordinate} (hc : c.xLeft < c.xRight)
    {nodes : Fin (p + 1) → ℝ} (h : Function.Injective nodes) (rule : Rule p) :
    ∃ s, lagrange kind c nodes rule = some s := by
  unfold lagrange
  dsimp only
  rw [if_neg ((baseRows_det hc nodes).2 h)]
  exact ⟨_, rfl⟩

/-- Localise a polynomial. -/
theorem exists_local {p : ℕ} {c : Coordinate} (q : ℝ[X]) (hq : q.natDegree ≤ p) :
    ∃ r : ℝ[X], r.natDegree ≤ p ∧ ∀ ξ, r.eval ξ = q.eval (c.localToGlobal ξ) := by
  obtain ⟨_, _, _, _, h5, _⟩ := c.eq_linear
  refine ⟨q.comp (C ((c.xRight - c.xLeft) / 2) * X + C ((c.xLeft + c.xRight) / 2)), ?_, fun ξ => ?_⟩
  · exact natDegree_comp_le.trans ((Nat.mul_le_mul hq natDegree_linear_le).trans (by simp))
  · rw [eval_comp, h5]
    congr 1
    simp only [eval_add, eval_mul, eval_C, eval_X]; ring

/-- A polynomial is the combination of the Lagrange basis with its values at the images of the nodes. -/
theorem global_reproduces {p : ℕ} {c : Coordinate} (hc : c.xLeft < c.xRight) {nodes : Fin (p + 1) → ℝ}
    (h : Function.Injective nodes) (q : ℝ[X]) (hq : q.natDegree ≤ p) (x : ℝ) :
    ∑ j, q.eval (samplePoints c nodes j) * PyPoly.basisValue nodes (c.globalToLocal x) j = q.eval x := by
  obtain ⟨r, hr, he⟩ := exists_local (c := c) q hq
  obtain ⟨_, h2, _⟩ := coordinate_spec c hc
  have hd : r.degree < (p + 1 : ℕ) :=
    lt_of_le_of_lt degree_le_natDegree (by exact_mod_cast Nat.lt_succ_of_le hr)
  have := (PyPoly.lagrange_reproduces h r hd (c.globalToLocal x)).1
  simpa only [he, h2, samplePoints] using this

theorem lagrange_sane {p : ℕ} {kind : Kind} (hk : kind ≠ .modal) {c : Coordinate}
    (hc : c.xLeft < c.xRight) {nodes : Fin (p + 1) → ℝ} {rule : Rule p} {s : Setup p}
    (h : lagrange kind c nodes rule = some s) :
    Sane s ∧ Function.Injective nodes ∧ s.kind = kind ∧ s.coordinate = c ∧
      s.integrator = rule.integrator c ∧ s.nodes = nodes ∧
      ∀ x i, s.basisValues x i = PyPoly.basisValue nodes (c.globalToLocal x) i := by
  unfold lagrange at h
  dsimp only at h
  by_cases hd : (Matrix.det fun i k : Fin (p + 1) => taylorValues c.xCenter (samplePoints c nodes i) k) = 0
  · rw [if_pos hd] at h; cases h
  rw [if_neg hd] at h
  have hinj := (baseRows_det hc nodes).1 hd
  set B : Matrix (Fin (p + 1)) (Fin (p + 1)) ℝ :=
    fun i k => taylorValues c.xCenter (samplePoints c nodes i) k with hB
  have hu : IsUnit B.det := isUnit_iff_ne_zero.2 hd
  cases h
  have hb : ∀ x i, Setup.basisValues ⟨kind, c, rule.integrator c, nodes, B⁻¹, B⟩ x i =
      PyPoly.basisValue nodes (c.globalToLocal x) i := by
    intro x i
    unfold Setup.basisValues
    cases kind <;> first | rfl | exact absurd rfl hk
  refine ⟨⟨hc, Matrix.nonsing_inv_mul _ hu, Matrix.mul_nonsing_inv _ hu, fun x i => ?_⟩, hinj, rfl, rfl, rfl,
    rfl, hb⟩
  rw [hb]
  have hr := global_reproduces hc hinj (tpoly c.xCenter fun l => B⁻¹ l i) (tpoly_natDegree _ _) x
  rw [tpoly_eval] at hr
  rw [← hr, Finset.sum_eq_single i]
  · rw [tpoly_eval]
    have : (B * B⁻¹) i i = 1 := by rw [Matrix.mul_nonsing_inv _ hu, Matrix.one_apply_eq]
    rw [Matrix.mul_apply] at this
    simp only [hB] at this ⊢
    rw [this, one_mul]
  · intro j _ hj
    rw [tpoly_eval]
    have : (B * B⁻¹) j i = 0 := by rw [Matrix.mul_nonsing_inv _ hu, Matrix.one_apply_ne hj]
    rw [Matrix.mul_apply] at this
    simp only [hB] at this ⊢
    rw [this, zero_mul]
  · simp

/-! ### Legendre -/

theorem legendreColumn_eq (k r : ℕ) : legendreColumn k r = (leg k).coeff r := by
  induction k using Nat.twoStepInduction generalizing r with
  | zero => simp [legendreColumn, leg, coeff_one]
  | one => simp [legendreColumn, leg, coeff_X, eq_comm]
  | more k ih0 ih1 =>
    have hb := congrArg (fun q : ℝ[X] => q.coeff r) (Vincent.bonnet k)
    simp only [coeff_C_mul, coeff_sub, mul_assoc] at hb
    have hk : ((k : ℝ) + 2) ≠ 0 := by positivity
    have deg : ∀ n, n < r → (leg n).coeff r = 0 := fun n hn =>
      coeff_eq_zero_of_natDegree_lt (lt_of_le_of_lt (FR.leg_natDegree n) hn)
    rw [legendreColumn]
    rw [ih0, ih1]
    rcases Nat.eq_zero_or_pos r with rfl | hr
    · simp only [coeff_X_mul_zero, mul_zero, zero_sub] at hb
      rw [if_pos (by omega : 0 < k + 1), if_neg (by omega : ¬ (1 ≤ 0 ∧ 0 < k + 3)),
        if_neg (by omega : ¬ 0 = k + 2)]
      field_simp
      linarith
    · obtain ⟨m, rfl⟩ : ∃ m, r = m + 1 := ⟨r - 1, by omega⟩
      rw [coeff_X_mul] at hb
      have e : m + 1 - 1 = m := rfl
      rw [e]
      by_cases h1 : m + 1 < k + 3
      · by_cases h2 : m + 1 < k + 1
        · rw [if_pos h2, if_pos (⟨hr, h1⟩ : 1 ≤ m + 1 ∧ m + 1 < k + 3)]; field_simp; linarith
        · rw [if_neg h2, if_pos (⟨hr, h1⟩ : 1 ≤ m + 1 ∧ m + 1 < k + 3)]
          rw [deg k (by omega)] at hb
          field_simp; linarith
      · rw [if_neg (by omega), if_neg (by omega), if_neg (by omega), deg _ (by omega)]

theorem modal_entry {c : Coordinate} (k r : ℕ) :
    (if r = 0 then legendreColumn k r else legendreColumn k r / c.localToJacobian 0 ^ r) =
      (leg k).coeff r / c.localToJacobian 0 ^ r := by
  rw [legendreColumn_eq]
  split_ifs with h
  · subst h; simp
  · rfl

theorem modal_det {p : ℕ} {c : Coordinate} (hc : c.xLeft < c.xRight) :
    (Matrix.det fun r k : Fin (p + 1) => if (r : ℕ) = 0 then legendreColumn k r
      else legendreColumn k r / c.localToJacobian 0 ^ (r : ℕ)) ≠ 0 := by
  have hj := (coordinate_spec c hc).2.2.2.2.2.2.2.2 0
  have hd := Matrix.det_of_upperTriangular (M := (fun r k => if (r : ℕ) = 0 then legendreColumn k r
      else legendreColumn k r / c.localToJacobian 0 ^ (r : ℕ) : Matrix (Fin (p + 1)) (Fin (p + 1)) ℝ)) ?_
  · refine hd.trans_ne ?_
    refine Finset.prod_ne_zero_iff.2 fun i _ => ?_
    rw [modal_entry]
    exact div_ne_zero (PyPoly.leg_coeff_pos i).ne' (pow_ne_zero _ hj.ne')
  · intro r k hrk
    change (if (r : ℕ) = 0 then legendreColumn k r else _) = 0
    rw [modal_entry, coeff_eq_zero_of_natDegree_lt, zero_div]
    exact lt_of_le_of_lt (FR.leg_natDegree k) hrk

theorem modal_defined {p : ℕ} {c : Coordinate} (hc : c.xLeft < c.xRight) (rule : Rule p) :
    ∃ s, modal c rule = some s := by
  unfold modal
  dsimp only
  rw [if_neg (modal_det hc)]
  exact ⟨_, rfl⟩

theorem modal_sane {p : ℕ} {c : Coordinate} (hc : c.xLeft < c.xRight) {rule : Rule p} {s : Setup p}
    (h : modal c rule = some s) :
    Sane s ∧ s.kind = .modal ∧ s.coordinate = c ∧ s.integrator = rule.integrator c ∧
      (∀ r k, s.toTaylor r k = (leg k).coeff r / c.localToJacobian 0 ^ (r : ℕ)) ∧
      ∀ x i, s.basisValues x i = Vincent.legendre i (c.globalToLocal x) := by
  unfold modal at h
  dsimp only at h
  rw [if_neg (modal_det hc)] at h
  have hu := isUnit_iff_ne_zero.2 (modal_det (p := p) hc)
  obtain ⟨_, hcen, h3, _, _, h6⟩ := c.eq_linear
  cases h
  refine ⟨⟨hc, Matrix.mul_nonsing_inv _ hu, Matrix.nonsing_inv_mul _ hu, fun x i => ?_⟩, rfl, rfl, rfl,
    fun r k => modal_entry _ _, fun x i => rfl⟩
  change Vincent.legendre i (c.globalToLocal x) = ∑ l : Fin (p + 1), taylorValues c.xCenter x l *
    (if (l : ℕ) = 0 then legendreColumn i l else legendreColumn i l / c.localToJacobian 0 ^ (l : ℕ))
  rw [← leg_eval, eval_eq_sum_range' (lt_of_le_of_lt (FR.leg_natDegree i) i.2), Finset.sum_range]
  refine Finset.sum_congr rfl fun l _ => ?_
  rw [modal_entry, taylorValues_eq, h6, h3, hcen, div_pow]
  ring

/-- Integrals over the element in the local coordinate. -/
theorem integral_local {c : Coordinate} (hc : c.xLeft < c.xRight) (g : ℝ → ℝ) :
    ∫ x in c.xLeft..c.xRight, g (c.globalToLocal x) =
      (c.xRight - c.xLeft) / 2 * ∫ ξ in (-1 : ℝ)..1, g ξ := by
  have hw : 0 < c.xRight - c.xLeft := by linarith
  have hJ : (c.xRight - c.xLeft) / 2 ≠ 0 := by positivity
  have hcomp : (fun x => g (c.globalToLocal x)) =
      fun x => g (x / ((c.xRight - c.xLeft) / 2) - ((c.xLeft + c.xRight) / 2) / ((c.xRight - c.xLeft) / 2)) := by
    funext x
    rw [c.eq_linear.2.2.2.2.2 x, sub_div]
  rw [hcomp, intervalIntegral.integral_comp_div_sub g hJ, smul_eq_mul]
  have hw' := hw.ne'
  congr 2
  · field_simp; ring
  · field_simp; ring

theorem leg_norm (n : ℕ) : Vincent.integral (leg n * leg n) = 2 / (2 * n + 1) := by
  have h1 : Vincent.integral (derivative (X * (leg n * leg n))) = 2 := by
    rw [Vincent.integral_derivative]
    simp only [eval_mul, eval_X, leg_eval, Vincent.legendre_one]
    rw [show (-1 : ℝ) = -(1 : ℝ) from rfl, Vincent.legendre_neg, Vincent.legendre_one]
    have : ((-1 : ℝ) ^ n) * (-1) ^ n = 1 := by rw [← mul_pow]; simp
    nlinarith
  have h2 : Vincent.integral (leg n * (X * derivative (leg n))) = n * Vincent.integral (leg n * leg n) := by
    cases n with
    | zero => simp [leg, Vincent.integral]
    | succ m =>
      rw [(Vincent.leg_derivative m).2, mul_add, Vincent.integral_add, Vincent.leg_orthogonal, zero_add]
      · rw [show leg (m + 1) * (C (m + 1 : ℝ) * leg (m + 1)) = C (m + 1 : ℝ) * (leg (m + 1) * leg (m + 1)) by ring,
          Vincent.integral_C_mul]
        push_cast; ring
      · refine lt_of_le_of_lt (degree_derivative_le) (lt_of_le_of_lt degree_le_natDegree ?_)
        exact_mod_cast Nat.lt_succ_of_le (FR.leg_natDegree m)
  have h3 : derivative (X * (leg n * leg n)) = leg n * leg n + C 2 * (leg n * (X * derivative (leg n))) := by
    simp only [derivative_mul, derivative_X, one_mul, map_ofNat]
    ring
  rw [h3, Vincent.integral_add, Vincent.integral_C_mul, h2] at h1
  have : (2 * (n : ℝ) + 1) ≠ 0 := by positivity
  field_simp
  linarith

theorem leg_pair (n m : ℕ) : Vincent.integral (leg n * leg m) = if n = m then 2 / (2 * (n : ℝ) + 1) else 0 := by
  have deg : ∀ a b : ℕ, a < b → (leg a).degree < b := fun a b h => lt_of_le_of_lt degree_le_natDegree
    (by exact_mod_cast lt_of_le_of_lt (FR.leg_natDegree a) h)
  split_ifs with h
  · subst h; exact leg_norm n
  · rcases Nat.lt_or_gt_of_ne h with h | h
    · rw [mul_comm]; exact Vincent.leg_orthogonal _ _ (deg _ _ h)
    · exact Vincent.leg_orthogonal _ _ (deg _ _ h)

/-- The integral of the square of a polynomial that is not zero. -/
theorem integral_sq_pos {a b : ℝ} (hab : a < b) {q : ℝ[X]} (hq : q ≠ 0) : 0 < ∫ x in a..b, (q.eval x) ^ 2 := by
  obtain ⟨c, hc, hqc⟩ : ∃ c ∈ Set.Ioo a b, q.eval c ≠ 0 := by
    by_contra hne
    push Not at hne
    refine hq (eq_zero_of_infinite_isRoot q (Set.Infinite.mono (s := Set.Ioo a b) ?_ (Set.Ioo_infinite hab)))
    intro x hx
    exact hne x hx
  refine intervalIntegral.integral_pos hab (q.continuous.pow 2).continuousOn (fun x _ => sq_nonneg _)
    ⟨c, ⟨hc.1.le, hc.2.le⟩, by positivity⟩

/-- The points of a rule of Gauss are distinct. -/
theorem gauss_injective {p : ℕ} {rule : Rule p} (h : ExactTo rule.apply (2 * p + 1)) :
    Function.Injective rule.x := by
  by_contra hn
  set S := Finset.univ.image rule.x with hS
  have hcard : S.card ≤ p := by
    have h1 : S.card ≤ p + 1 := (Finset.card_image_le).trans (by simp)
    have h2 : S.card ≠ p + 1 := fun e => hn fun i j hij => Finset.card_image_iff.1
      (by rw [← hS, e]; simp : (Finset.univ.image rule.x).card = (Finset.univ : Finset (Fin (p + 1))).card)
      (by simp) (by simp) hij
    omega
  set q : ℝ[X] := ∏ y ∈ S, (X - C y) with hq
  have hdeg : q.natDegree = S.card := natDegree_finsetProd_X_sub_C_eq_card S (fun y => y)
  have hne : q ≠ 0 := Finset.prod_ne_zero_iff.2 fun y _ => X_sub_C_ne_zero y
  have h0 := h (q ^ 2) (by rw [natDegree_pow]; omega)
  simp only [eval_pow] at h0
  have hz : rule.apply (fun x => q.eval x ^ 2) = 0 := by
    refine Finset.sum_eq_zero fun i _ => ?_
    have : q.eval (rule.x i) = 0 := by
      rw [hq, eval_prod]
      exact Finset.prod_eq_zero (Finset.mem_image_of_mem _ (Finset.mem_univ i)) (by simp)
    simp [this]
  exact (integral_sq_pos (by norm_num) hne).ne' (h0.symm.trans hz)

theorem uniformRoots_injective (p : ℕ) : Function.Injective (uniformRoots p) := by
  intro i j hij
  rcases Nat.eq_zero_or_pos p with rfl | hp
  · exact Fin.ext (by omega)
  simp only [uniformRoots, Integrator.linspace] at hij
  have h1 : (0 : ℝ) < p := by exact_mod_cast hp
  have h2 : (1 - 2 / ((p : ℝ) + 1) / 2 - (2 / ((p : ℝ) + 1) / 2 - 1)) / p ≠ 0 := by
    have : 1 - 2 / ((p : ℝ) + 1) / 2 - (2 / ((p : ℝ) + 1) / 2 - 1) = 2 * p / (p + 1) := by
      field_simp; ring
    rw [this]; positivity
  have h3 := mul_right_cancel₀ h2 (add_left_cancel hij)
  exact Fin.ext (by exact_mod_cast h3)

end MiniCFD.PyExpansion
