import Verif.Props.PyDissipation
import Verif.Lemmas.Taylor

/-! Helper lemmas about the dissipation rate. -/

namespace MiniCFD.PyDissipation
open MiniCFD.PyQuad MiniCFD.PyExpansion MiniCFD.PyDG MiniCFD.PyFR Polynomial

variable {p n : ℕ} {c : Coordinate} {s : Setup p}

/-- A polynomial from its values at the nodes. -/
theorem nodal_poly (hc : c.xLeft < c.xRight) (h : Built c s) (hk : s.kind ≠ .modal) :
    ∃ q : Fin (p + 1) → ℝ[X], (∀ i, (q i).natDegree ≤ p) ∧ (∀ i x, s.basisValues x i = (q i).eval x) ∧
      ∀ U : ℝ[X], U.natDegree ≤ p → U = ∑ i, C (U.eval (s.points i)) * q i := by
  choose q hq hv _ using basis_poly hc h
  refine ⟨q, hq, hv, fun U hU => Polynomial.funext fun x => ?_⟩
  rw [interpolate hc h hk U hU x, eval_finset_sum]
  simp only [eval_mul, eval_C, hv]

theorem iterate_sum {ι : Type*} (t : Finset ι) (f : ι → ℝ[X]) (k : ℕ) :
    derivative^[k] (∑ i ∈ t, f i) = ∑ i ∈ t, derivative^[k] (f i) := by
  induction k generalizing f with
  | zero => rfl
  | succ k ih => simp only [Function.iterate_succ, Function.comp, derivative_sum, ih]

/-- Sums over the cached derivatives of the basis are derivatives. -/
theorem nodal_derivatives (hc : c.xLeft < c.xRight) (h : Built c s) (hk : s.kind ≠ .modal) (U : ℝ[X])
    (hU : U.natDegree ≤ p) (k : ℕ) :
    (∀ j, ∑ i, nodeBasisDerivatives s j k i * U.eval (s.points i) = (derivative^[k] U).eval (s.points j)) ∧
    ∑ i, boundaryBasisDerivatives s k true i * U.eval (s.points i) = (derivative^[k] U).eval c.xLeft ∧
    ∑ i, boundaryBasisDerivatives s k false i * U.eval (s.points i) = (derivative^[k] U).eval c.xRight := by
  obtain ⟨q, hq, hv, hp⟩ := nodal_poly hc h hk
  have e : ∀ i x, iteratedDeriv k (fun x => s.basisValues x i) x = (derivative^[k] (q i)).eval x := fun i x => by
    rw [show (fun x => s.basisValues x i) = fun x => (q i).eval x from _root_.funext (hv i), MiniCFD.Taylor.iteratedDeriv_poly]
  have main : ∀ x, (derivative^[k] U).eval x = ∑ i, (derivative^[k] (q i)).eval x * U.eval (s.points i) := by
    intro x
    conv_lhs => rw [hp U hU, iterate_sum, eval_finset_sum]
    refine Finset.sum_congr rfl fun i _ => ?_
    rw [iterate_derivative_C_mul, eval_mul, eval_C, mul_comm]
  refine ⟨fun j => ?_, ?_, ?_⟩
  · rw [main]; exact Finset.sum_congr rfl fun i _ => by rw [(cached_basis_derivatives hc h i k).1, e]
  · rw [main]; exact Finset.sum_congr rfl fun i _ => by rw [(cached_basis_derivatives hc h i k).2.1, e]
  · rw [main]; exact Finset.sum_congr rfl fun i _ => by rw [(cached_basis_derivatives hc h i k).2.2, e]

/-- The slope that an element alone, with zero beyond its ends, has at an interface. -/
noncomputable def slopeLeft (U : ℝ[X]) (x : ℝ) : Option ℝ → ℝ
  | none => 0
  | some δ => 3 / δ * U.eval x + 1 / 12 * δ * (derivative^[2] U).eval x + (derivative U).eval x / 2
noncomputable def slopeRight (U : ℝ[X]) (x : ℝ) : Option ℝ → ℝ
  | none => 0
  | some δ => 3 / δ * -U.eval x + 1 / 12 * δ * -(derivative^[2] U).eval x + (derivative U).eval x / 2

/-- The matrix of an element applied to the values of a polynomial. -/
theorem own_apply (hc : c.xLeft < c.xRight) (h : Built c s) (hk : s.kind ≠ .modal) {g : Correction} (P : Pair c p g)
    (left right : Option (Setup p)) (U : ℝ[X]) (hU : U.natDegree ≤ p) (k : Fin (p + 1)) :
    ∑ j, (matrices g s left right).own k j * U.eval (s.points j) =
      (derivative^[2] U).eval (s.points k) +
        (derivative P.L).eval (s.points k) * (slopeLeft U c.xLeft (left.map fun l =>
          (l.coordinate.length + s.coordinate.length) / 2) - (derivative U).eval c.xLeft) +
        (derivative P.R).eval (s.points k) * (slopeRight U c.xRight (right.map fun r =>
          (s.coordinate.length + r.coordinate.length) / 2) - (derivative U).eval c.xRight) := by
  have hco := (h.sane hc).2
  have hdU : (derivative U).natDegree ≤ p := (natDegree_derivative_le U).trans (by omega)
  have hg1 : (correctionGradients g s (s.points k)).1 = (derivative P.L).eval (s.points k) := by
    rw [← (P.gradient _).1]; simp only [correctionGradients, hco]
  have hg2 : (correctionGradients g s (s.points k)).2 = (derivative P.R).eval (s.points k) := by
    rw [← (P.gradient _).2]; simp only [correctionGradients, hco]
  have e1 := (nodal_derivatives hc h hk U hU 1).1
  have hb : ∑ j, (matrices g s left right).b k j * U.eval (s.points j) = (derivative^[2] U).eval (s.points k) := by
    have h2 := (nodal_derivatives hc h hk (derivative U) hdU 1).1 k
    simp only [Function.iterate_one] at h2 e1
    rw [show (derivative^[2] U) = derivative (derivative U) from rfl, ← h2]
    simp only [← e1, matrices, Finset.sum_mul, Finset.mul_sum]
    rw [Finset.sum_comm]
    exact Finset.sum_congr rfl fun l _ => Finset.sum_congr rfl fun j _ => by ring
  have bl := fun r => (nodal_derivatives hc h hk U hU r).2.1
  have br := fun r => (nodal_derivatives hc h hk U hU r).2.2
  have hcm : ∑ j, (matrices g s left right).c k j * U.eval (s.points j) =
      (derivative P.L).eval (s.points k) * (derivative U).eval c.xLeft +
        (derivative P.R).eval (s.points k) * (derivative U).eval c.xRight := by
    have h1 := bl 1
    have h2 := br 1
    simp only [Function.iterate_one] at h1 h2
    rw [← h1, ← h2, Finset.mul_sum, Finset.mul_sum, ← Finset.sum_add_distrib]
    refine Finset.sum_congr rfl fun j _ => ?_
    rw [← slope_interpolated hc h hk, ← slope_interpolated hc h hk, ← hg1, ← hg2]
    simp only [matrices, Finset.sum_mul, Finset.mul_sum]
    rw [← Finset.sum_add_distrib]
    exact Finset.sum_congr rfl fun l _ => by ring
  have hd : ∑ j, (matrices g s left right).d k j * U.eval (s.points j) =
      (derivative P.L).eval (s.points k) * slopeLeft U c.xLeft (left.map fun l =>
          (l.coordinate.length + s.coordinate.length) / 2) +
        (derivative P.R).eval (s.points k) * slopeRight U c.xRight (right.map fun r =>
          (s.coordinate.length + r.coordinate.length) / 2) := by
    have l0 := bl 0; have l1 := bl 1; have l2 := bl 2
    have r0 := br 0; have r1 := br 1; have r2 := br 2
    simp only [Function.iterate_one, Function.iterate_zero, id_eq] at l0 l1 r0 r1
    have el : ∀ l : Setup p, ∑ j, interfaceGradient l.coordinate.length s.coordinate.length
        (boundaryBasisDerivatives s 0 true) ((1 / 2 : ℝ) • boundaryBasisDerivatives s 1 true)
        (boundaryBasisDerivatives s 2 true) j * U.eval (s.points j) = slopeLeft U c.xLeft
          (some ((l.coordinate.length + s.coordinate.length) / 2)) := by
      intro l
      simp only [interfaceGradient, Pi.add_apply, Pi.smul_apply, smul_eq_mul, add_mul, Finset.sum_add_distrib, mul_assoc,
        ← Finset.mul_sum, l0, l1, l2, slopeLeft]
      ring
    have er : ∀ r : Setup p, ∑ j, interfaceGradient s.coordinate.length r.coordinate.length
        (-boundaryBasisDerivatives s 0 false) ((1 / 2 : ℝ) • boundaryBasisDerivatives s 1 false)
        (-boundaryBasisDerivatives s 2 false) j * U.eval (s.points j) = slopeRight U c.xRight
          (some ((s.coordinate.length + r.coordinate.length) / 2)) := by
      intro r
      simp only [interfaceGradient, Pi.add_apply, Pi.smul_apply, Pi.neg_apply, smul_eq_mul, add_mul, Finset.sum_add_distrib,
        mul_assoc, neg_mul, Finset.sum_neg_distrib, ← Finset.mul_sum, r0, r1, r2, slopeRight, mul_neg]
      ring
    have split : ∀ (a b : ℝ) (f g : Fin (p + 1) → ℝ), ∑ j, (a * f j + b * g j) * U.eval (s.points j) =
        b * (∑ j, g j * U.eval (s.points j)) + a * ∑ j, f j * U.eval (s.points j) := by
      intro a b f g
      rw [Finset.mul_sum, Finset.mul_sum, ← Finset.sum_add_distrib]
      exact Finset.sum_congr rfl fun j _ => by ring
    cases left <;> cases right <;> simp only [matrices, split, el, er, hg1, hg2] <;> simp [slopeLeft, slopeRight]
  simp only [Matrices.own, Matrix.add_apply, Matrix.sub_apply, add_mul, sub_mul, Finset.sum_add_distrib,
    Finset.sum_sub_distrib, hb, hcm, hd]
  ring

end MiniCFD.PyDissipation
