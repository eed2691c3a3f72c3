import Verif.Model.PyDG
import Verif.Props.PyExpansion

/-! Helper lemmas about the discontinuous Galerkin schemes of the Python code. -/

namespace MiniCFD.PyDG
open MiniCFD.PyQuad MiniCFD.PyExpansion Polynomial
open MiniCFD.Spec.Gauss (ExactTo)

variable {p : ℕ} {c : Coordinate} {s : Setup p} {V : Type*} [NormedAddCommGroup V] [NormedSpace ℝ V]

/-! ### Polynomials in the basis -/

/-- Every polynomial of degree at most `p` is a combination of the basis, and so is its derivative. -/
theorem exists_coeff (hc : c.xLeft < c.xRight) (h : Built c s) (φ : ℝ[X]) (hφ : φ.natDegree ≤ p) :
    ∃ a : Fin (p + 1) → ℝ, (∀ x, φ.eval x = ∑ i, a i * s.basisValues x i) ∧
      ∀ x, (derivative φ).eval x = ∑ i, a i * s.basisGradients x i := by
  obtain ⟨hs, he⟩ := h.sane hc
  obtain ⟨t, rfl⟩ := tpoly_surj s.coordinate.xCenter φ hφ
  have hv : ∀ x, (tpoly s.coordinate.xCenter t).eval x =
      ∑ i, (∑ k, s.fromTaylor i k * t k) * s.basisValues x i := by
    intro x
    have ht : ∀ l, ∑ i, s.toTaylor l i * (∑ k, s.fromTaylor i k * t k) = t l := by
      intro l
      have := congrFun (congrArg (fun m => Matrix.mulVec m t) hs.toFrom) l
      simp only [Matrix.one_mulVec] at this
      rw [← Matrix.mulVec_mulVec] at this
      exact this
    rw [tpoly_eval]
    conv_lhs => enter [2, l]; rw [← ht l]
    simp only [hs.basis, Finset.mul_sum]
    rw [Finset.sum_comm]
    refine Finset.sum_congr rfl fun i _ => Finset.sum_congr rfl fun l _ => ?_
    simp only [Finset.sum_mul]
    exact Finset.sum_congr rfl fun k _ => by ring
  refine ⟨_, hv, fun x => ?_⟩
  have h1 := (tpoly s.coordinate.xCenter t).hasDerivAt x
  rw [show (fun x => (tpoly s.coordinate.xCenter t).eval x) = _ from funext hv] at h1
  refine h1.unique ?_
  exact HasDerivAt.fun_sum fun i _ => ((basis_derivatives hc h i x).1).const_mul _

/-- An integrator on the combination of polynomials with vectors. -/
theorem integrate_comb [CompleteSpace V] {m d : ℕ} {rule : Rule m} (exact : ExactTo rule.apply d)
    {ι : Type*} [Fintype ι] (q : ι → ℝ[X]) (hq : ∀ i, (q i).natDegree ≤ d) (v : ι → V) :
    (rule.integrator c).integrate (fun x => ∑ i, (q i).eval x • v i) =
      ∫ x in c.xLeft..c.xRight, ∑ i, (q i).eval x • v i := by
  rw [intervalIntegral.integral_finset_sum]
  · simp only [intervalIntegral.integral_smul_const, ← integrate_exact exact c _ (hq _),
      Integrator.integrate_eq, Finset.smul_sum, Finset.sum_smul, smul_smul, smul_eq_mul]
    exact Finset.sum_comm
  · intro i _
    exact ((q i).continuous.smul continuous_const).intervalIntegrable _ _

theorem boundary_zero (hc : c.xLeft < c.xRight) (h : Built c s) (i : Fin (p + 1)) :
    boundaryBasisDerivatives s 0 true i = s.basisValues c.xLeft i ∧
    boundaryBasisDerivatives s 0 false i = s.basisValues c.xRight i ∧
    boundaryBasisDerivatives s 1 true i = s.basisGradients c.xLeft i ∧
    boundaryBasisDerivatives s 1 false i = s.basisGradients c.xRight i := by
  have h0 := cached_basis_derivatives hc h i 0
  have h1 := cached_basis_derivatives hc h i 1
  simp only [iteratedDeriv_zero, iteratedDeriv_one] at h0 h1
  refine ⟨h0.2.1, h0.2.2, ?_, ?_⟩
  · rw [h1.2.1, ((basis_derivatives hc h i _).1).deriv]
  · rw [h1.2.2, ((basis_derivatives hc h i _).1).deriv]

/-! ### The interior -/

/-- The points of the integrator are the sample points on Gauss points. -/
theorem points_eq (hc : c.xLeft < c.xRight) (h : Built c s)
    (hk : s.kind = .legendreRoots ∨ s.kind = .lobatto) (j : Fin (p + 1)) :
    s.integrator.points j = s.points j := by
  cases h with
  | uniform rule _ h => rw [(lagrange_sane (by simp) hc h).2.2.1] at hk; simp at hk
  | modal rule _ h => rw [(modal_sane hc h).2.1] at hk; simp at hk
  | legendreRoots rule _ h =>
    obtain ⟨_, _, _, hco, hi, hn, _⟩ := lagrange_sane (by simp) hc h
    rw [hi, Setup.points, samplePoints, hn, hco]; rfl
  | lobatto h =>
    obtain ⟨rule, _, h⟩ := lobatto_cases h
    obtain ⟨_, _, _, hco, hi, hn, _⟩ := lagrange_sane (by simp) hc h
    rw [hi, Setup.points, samplePoints, hn, hco]; rfl

/-- The weighted sum of nodal values is the integral of all kinds of elements. -/
theorem interior_eq (hc : c.xLeft < c.xRight) (ph : Physics V) (K : Cell p V) (h : Built c K.setup)
    (hr : Reached K.setup K.state) (i : Fin (p + 1)) :
    interior ph K i = K.setup.integrator.integrate fun x => K.setup.basisGradients x i • dgFluxAt ph K x := by
  unfold interior
  have nodal : K.setup.kind = .legendreRoots ∨ K.setup.kind = .lobatto →
      (K.setup.integrator.integrateIndex fun j => nodeBasisDerivatives K.setup j 1 i •
        dgFlux ph K (K.setup.points j) (nodeDerivatives K.setup K.state j 0) (nodeDerivatives K.setup K.state j 1)) =
      K.setup.integrator.integrate fun x => K.setup.basisGradients x i • dgFluxAt ph K x := by
    intro hk
    have hm : K.setup.kind ≠ .modal := by rcases hk with hk | hk <;> simp [hk]
    rw [Integrator.integrate_eq, Integrator.integrateIndex_eq]
    refine Finset.sum_congr rfl fun j _ => ?_
    rw [points_eq hc h hk j, dgFluxAt]
    have h0 := ((value_derivatives hc h hr (K.setup.points j)).2 0).2.2.2.2 hm j
    have h1 := ((value_derivatives hc h hr (K.setup.points j)).2 1).2.2.2.2 hm j
    rw [iteratedDeriv_zero] at h0
    rw [iteratedDeriv_one, ((value_derivatives hc h hr (K.setup.points j)).1).deriv] at h1
    have h2 := (cached_basis_derivatives hc h i 1).1 j
    rw [iteratedDeriv_one, ((basis_derivatives hc h i _).1).deriv] at h2
    rw [h0, h1, h2]
  dsimp only
  cases hk : K.setup.kind with
  | uniform => rfl
  | modal => rfl
  | legendreRoots => exact nodal (.inl hk)
  | lobatto => exact nodal (.inr hk)

/-! ### The mass matrix -/

theorem Built.jacobian_pos (hc : c.xLeft < c.xRight) (x : ℝ) : 0 < c.localToJacobian x :=
  (coordinate_spec c hc).2.2.2.2.2.2.2.2 x

theorem basis_ne_zero (hc : c.xLeft < c.xRight) (h : Built c s) (a : Fin (p + 1) → ℝ)
    (h0 : ∀ x, ∑ i, a i * s.basisValues x i = 0) : a = 0 := by
  obtain ⟨hs, _⟩ := h.sane hc
  -- the Taylor coefficients vanish
  have hp : tpoly s.coordinate.xCenter (s.toTaylor.mulVec a) = 0 := by
    refine Polynomial.funext fun x => ?_
    rw [tpoly_eval, eval_zero, ← h0 x]
    simp only [hs.basis, Matrix.mulVec, dotProduct, Finset.mul_sum]
    rw [Finset.sum_comm]
    exact Finset.sum_congr rfl fun i _ => Finset.sum_congr rfl fun l _ => by ring
  have hz : s.toTaylor.mulVec a = 0 := by
    have hc0 : PyPoly.coeffPoly (s.toTaylor.mulVec a) = 0 := by
      have := congrArg (fun q : ℝ[X] => q.comp (X + C s.coordinate.xCenter)) hp
      simpa [tpoly, comp_assoc] using this
    funext i
    rw [← PyPoly.coeffPoly_coeff (s.toTaylor.mulVec a) i, hc0]
    simp
  have := congrArg (fun v => s.fromTaylor.mulVec v) hz
  simpa [Matrix.mulVec_mulVec, hs.fromTo] using this

theorem diag_pos (hc : c.xLeft < c.xRight) (h : Built c s) (i : Fin (p + 1)) : 0 < s.innerProducts i i := by
  by_cases hk : s.kind = .lobatto
  · rw [(mass_matrix hc h i i).2.1 (.inr hk), if_pos rfl]
    cases h with
    | uniform rule _ h => rw [(lagrange_sane (by simp) hc h).2.2.1] at hk; simp at hk
    | modal rule _ h => rw [(modal_sane hc h).2.1] at hk; simp at hk
    | legendreRoots rule _ h => rw [(lagrange_sane (by simp) hc h).2.2.1] at hk; simp at hk
    | lobatto h =>
      obtain ⟨rule, hr, h⟩ := lobatto_cases h
      rw [(lagrange_sane (by simp) hc h).2.2.2.2.1]
      exact mul_pos ((lobatto_sound hr).2.2.2.2.1 i) (Built.jacobian_pos hc _)
  · rw [(mass_matrix hc h i i).1 hk]
    obtain ⟨q, _, hq⟩ := (basis_values hc h i).1
    have hne : q ≠ 0 := by
      rintro rfl
      have := basis_ne_zero hc h (Pi.single i 1) fun x => by
        rw [Finset.sum_eq_single i]
        · simp [hq]
        · intro j _ hj; simp [hj]
        · simp
      have := congrFun this i
      simp at this
    simp only [hq, ← sq]
    exact integral_sq_pos hc hne

theorem mass_det (hc : c.xLeft < c.xRight) (h : Built c s) (hk : s.kind ≠ .lobatto) :
    s.innerProducts.det ≠ 0 := by
  intro hd
  obtain ⟨a, ha, h0⟩ := Matrix.exists_mulVec_eq_zero_iff.2 hd
  refine ha (basis_ne_zero hc h a ?_)
  choose q hq using fun i => (basis_values hc h i).1
  have hsq : ∫ x in c.xLeft..c.xRight, (∑ i, C (a i) * q i).eval x ^ 2 = 0 := by
    have e : ∀ x, (∑ i, C (a i) * q i).eval x ^ 2 =
        ∑ i, ∑ j, (s.basisValues x i * s.basisValues x j) * (a i * a j) := by
      intro x
      simp only [eval_finsetSum, eval_mul, eval_C, sq, Finset.sum_mul_sum, (hq _).2]
      exact Finset.sum_congr rfl fun i _ => Finset.sum_congr rfl fun j _ => by ring
    have hcont : ∀ i, Continuous fun x => s.basisValues x i := fun i => by
      rw [funext (hq i).2]; exact (q i).continuous
    simp only [e]
    rw [intervalIntegral.integral_finset_sum]
    · refine Finset.sum_eq_zero fun i _ => ?_
      rw [intervalIntegral.integral_finset_sum]
      · simp only [intervalIntegral.integral_mul_const, ← (mass_matrix hc h i _).1 hk]
        have := congrFun h0 i
        simp only [Matrix.mulVec, dotProduct, Pi.zero_apply] at this
        calc _ = a i * ∑ j, s.innerProducts i j * a j := by
              rw [Finset.mul_sum]; exact Finset.sum_congr rfl fun j _ => by ring
          _ = 0 := by rw [this, mul_zero]
      · intro j _
        exact (((hcont i).mul (hcont j)).mul_const _).intervalIntegrable _ _
    · intro i _
      exact (continuous_finset_sum _ fun j _ => ((hcont i).mul (hcont j)).mul_const _).intervalIntegrable _ _
  have hz : (∑ i, C (a i) * q i) = 0 := by
    by_contra hne
    exact (integral_sq_pos hc hne).ne' hsq
  intro x
  have := congrArg (fun r : ℝ[X] => r.eval x) hz
  simpa [eval_finsetSum, (hq _).2] using this

/-- `divide_mass_matrix` never fails and solves the system. -/
theorem divideMass_spec (hc : c.xLeft < c.xRight) (h : Built c s) (column : Fin (p + 1) → V) :
    ∃ r, divideMass s column = some r ∧ ∀ i, ∑ j, s.innerProducts i j • r j = column i := by
  have rows : ∀ weight : Fin (p + 1) → ℝ, (∀ i j, s.innerProducts i j = if i = j then weight i else 0) →
      ∃ r, divideRows weight column = some r ∧ ∀ i, ∑ j, s.innerProducts i j • r j = column i := by
    intro w hw
    have hne : ∀ i, w i ≠ 0 := fun i => by
      have := diag_pos hc h i
      rw [hw, if_pos rfl] at this
      exact this.ne'
    refine ⟨_, if_neg (by push Not; exact hne), fun i => ?_⟩
    rw [Finset.sum_eq_single i]
    · rw [hw, if_pos rfl, smul_smul, mul_inv_cancel₀ (hne i), one_smul]
    · intro j _ hj; rw [hw, if_neg (Ne.symm hj), zero_smul]
    · simp
  unfold divideMass
  cases hk : s.kind with
  | uniform =>
    have hd := mass_det hc h (by simp [hk])
    refine ⟨_, if_neg hd, fun i => ?_⟩
    have := congrFun (apply_mul s.innerProducts s.innerProducts⁻¹ column) i
    rw [Matrix.mul_nonsing_inv _ (isUnit_iff_ne_zero.2 hd), apply_one] at this
    exact this
  | legendreRoots => exact rows _ fun i j => (mass_matrix hc h i j).2.1 (.inl hk)
  | lobatto => exact rows _ fun i j => (mass_matrix hc h i j).2.1 (.inr hk)
  | modal => exact rows _ fun i j => (mass_matrix hc h i j).2.2 hk

end MiniCFD.PyDG
