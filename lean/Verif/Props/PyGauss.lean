import Verif.Lemmas.PyGauss
import Verif.Lemmas.PyLimiter

/-! What is assumed of `scipy.special.roots_legendre` throughout C93–C105 can be met, and in one way only. -/

namespace MiniCFD.PyQuad

open Polynomial
open MiniCFD.Vincent (leg)
open MiniCFD.Spec.Gauss (ExactTo)

/-- C93: There are rules of Gauss for all numbers of points at once. -/
theorem roots_exist : ∃ roots : (m : ℕ) → Rule m, ∀ m, ExactTo (roots m).apply (2 * m + 1) :=
  ⟨fun m => (gauss_exists m).choose, fun m => (gauss_exists m).choose_spec⟩

/-- C93: A rule with the exactness of Gauss has its points at the roots of the Legendre polynomial, and its
weights are positive. -/
theorem roots_of_legendre {m : ℕ} {r : Rule m} (h : ExactTo r.apply (2 * m + 1)) (i : Fin (m + 1)) :
    (leg (m + 1)).eval (r.x i) = 0 ∧ 0 < r.w i := by
  refine ⟨?_, PyLimiter.gauss_weights h i⟩
  have hinj := PyExpansion.gauss_injective h
  set q : ℝ[X] := Lagrange.basis Finset.univ r.x i with hq
  have hdeg : q.natDegree = m := by
    rw [hq, Lagrange.natDegree_basis hinj.injOn (Finset.mem_univ i)]; simp
  have h0 := h (leg (m + 1) * q) (by
    have := FR.leg_natDegree (m + 1)
    exact natDegree_mul_le.trans (by omega))
  have h1 : ∫ ξ in (-1 : ℝ)..1, (leg (m + 1) * q).eval ξ = 0 :=
    Vincent.leg_orthogonal (m + 1) q (lt_of_le_of_lt degree_le_natDegree (by rw [hdeg]; exact_mod_cast Nat.lt_succ_self m))
  rw [h1] at h0
  have hz : r.apply (fun x => (leg (m + 1) * q).eval x) = r.w i * (leg (m + 1)).eval (r.x i) := by
    rw [Rule.apply, Finset.sum_eq_single i]
    · rw [eval_mul, hq, Lagrange.eval_basis_self hinj.injOn (Finset.mem_univ i), mul_one]
    · intro j _ hj
      rw [eval_mul, hq, Lagrange.eval_basis_of_ne (Ne.symm hj) (Finset.mem_univ j)]; ring
    · simp
  rw [hz] at h0
  exact (mul_eq_zero.mp h0).resolve_left (PyLimiter.gauss_weights h i).ne'

/-- C93: So the ordered rule of Gauss is unique: what `roots_legendre` has to return is determined. -/
theorem roots_unique {m : ℕ} {r r' : Rule m} (h : ExactTo r.apply (2 * m + 1)) (h' : ExactTo r'.apply (2 * m + 1))
    (hx : StrictMono r.x) (hx' : StrictMono r'.x) : r = r' := by
  have hne : leg (m + 1) ≠ 0 := by
    intro h0
    have := PyExpansion.leg_norm (m + 1)
    rw [h0] at this
    simp only [Vincent.integral, mul_zero, eval_zero, intervalIntegral.integral_zero] at this
    have hp : (0 : ℝ) < 2 / (2 * ((m + 1 : ℕ) : ℝ) + 1) := by positivity
    linarith
  have img : ∀ {r : Rule m}, ExactTo r.apply (2 * m + 1) → Finset.univ.image r.x = (leg (m + 1)).roots.toFinset := by
    intro r h
    refine Finset.eq_of_subset_of_card_le ?_ ?_
    · intro y hy
      obtain ⟨i, -, rfl⟩ := Finset.mem_image.mp hy
      rw [Multiset.mem_toFinset, mem_roots hne]
      exact (roots_of_legendre h i).1
    · rw [Finset.card_image_of_injective _ (PyExpansion.gauss_injective h)]
      refine (Multiset.toFinset_card_le _).trans ((card_roots' _).trans ?_)
      simpa using FR.leg_natDegree (m + 1)
  have hxx : r.x = r'.x := by
    refine (hx.range_inj hx').mp ?_
    have := (img h).trans (img h').symm
    have e := congrArg (fun s : Finset ℝ => (s : Set ℝ)) this
    simpa using e
  have hw : ∀ i, r.w i = r'.w i := by
    intro i
    have hinj := PyExpansion.gauss_injective h
    have key : ∀ {r : Rule m}, ExactTo r.apply (2 * m + 1) → r.w i = ∫ y in (-1 : ℝ)..1, (Lagrange.basis Finset.univ r.x i).eval y := by
      intro r h
      have hinj := PyExpansion.gauss_injective h
      rw [← h _ (by rw [Lagrange.natDegree_basis hinj.injOn (Finset.mem_univ i)]; simp; omega), Rule.apply,
        Finset.sum_eq_single i]
      · rw [Lagrange.eval_basis_self hinj.injOn (Finset.mem_univ i), mul_one]
      · intro j _ hj
        rw [Lagrange.eval_basis_of_ne (Ne.symm hj) (Finset.mem_univ j), mul_zero]
      · simp
    rw [key h, key h', hxx]
  cases r
  cases r'
  simp only [Rule.mk.injEq]
  exact ⟨hxx, funext hw⟩

end MiniCFD.PyQuad
