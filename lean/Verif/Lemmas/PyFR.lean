import Verif.Model.PyFR
import Verif.Props.PyDG
import Verif.Props.PyPoly

/-! Helper lemmas about the flux reconstruction schemes of the Python code. -/

namespace MiniCFD.PyFR
open MiniCFD.PyQuad MiniCFD.PyExpansion MiniCFD.PyDG Polynomial
open MiniCFD.Spec.Gauss (ExactTo)
open MiniCFD.Spec.PyPoly (IsPair Orthogonal)

variable {p : ℕ} {c : Coordinate} {V : Type*} [NormedAddCommGroup V] [NormedSpace ℝ V]

/-- A polynomial of degree at most `p` is the interpolant of its values at the nodes. -/
theorem interpolate (hc : c.xLeft < c.xRight) {s : Setup p} (h : Built c s) (hk : s.kind ≠ .modal) (φ : ℝ[X])
    (hφ : φ.natDegree ≤ p) (x : ℝ) : φ.eval x = ∑ i, φ.eval (s.points i) * s.basisValues x i := by
  obtain ⟨a, ha, _⟩ := exists_coeff hc h φ hφ
  have e : ∀ j, φ.eval (s.points j) = a j := by
    intro j
    rw [ha, Finset.sum_eq_single j]
    · rw [(basis_values hc h j).2.1 hk, if_pos rfl, mul_one]
    · intro i _ hi; rw [(basis_values hc h i).2.1 hk, if_neg hi, mul_zero]
    · simp
  rw [ha]
  simp only [e]

/-- A combination of polynomials with vectors is the function with the coefficients it has at the nodes. -/
theorem field_comb (hc : c.xLeft < c.xRight) {s : Setup p} (h : Built c s) (hk : s.kind ≠ .modal)
    {ι : Type*} [Fintype ι] (q : ι → ℝ[X]) (hq : ∀ k, (q k).natDegree ≤ p) (v : ι → V) (x : ℝ) :
    field s (fun i => ∑ k, (q k).eval (s.points i) • v k) x = ∑ k, (q k).eval x • v k := by
  rw [field_eq hc h]
  simp only [Finset.smul_sum, smul_smul]
  rw [Finset.sum_comm]
  refine Finset.sum_congr rfl fun k _ => ?_
  rw [← Finset.sum_smul, interpolate hc h hk (q k) (hq k) x]
  simp only [mul_comm]

/-- The gradients of the basis as polynomials. -/
theorem basis_poly (hc : c.xLeft < c.xRight) {s : Setup p} (h : Built c s) (i : Fin (p + 1)) :
    ∃ q : ℝ[X], q.natDegree ≤ p ∧ (∀ x, s.basisValues x i = q.eval x) ∧
      ∀ x, s.basisGradients x i = (derivative q).eval x := by
  obtain ⟨q, hq, hv⟩ := (basis_values hc h i).1
  refine ⟨q, hq, hv, fun x => ?_⟩
  have h1 := (basis_derivatives hc h i x).1
  rw [show (fun x => s.basisValues x i) = fun x => q.eval x from funext hv] at h1
  exact h1.unique (q.hasDerivAt x)

/-- The two correction functions in the global coordinate. -/
structure Pair (c : Coordinate) (p : ℕ) (g : Correction) where
  L : ℝ[X]
  R : ℝ[X]
  degL : L.natDegree ≤ p + 1
  degR : R.natDegree ≤ p + 1
  value : ∀ x, g.value (c.globalToLocal x) = (L.eval x, R.eval x)
  gradient : ∀ x, (g.gradient (c.globalToLocal x)).1 / c.localToJacobian (c.globalToLocal x) = (derivative L).eval x ∧
    (g.gradient (c.globalToLocal x)).2 / c.localToJacobian (c.globalToLocal x) = (derivative R).eval x
  ll : L.eval c.xLeft = 1
  lr : L.eval c.xRight = 0
  rl : R.eval c.xLeft = 0
  rr : R.eval c.xRight = 1

theorem local_ends (hc : c.xLeft < c.xRight) :
    c.globalToLocal c.xLeft = -1 ∧ c.globalToLocal c.xRight = 1 := by
  obtain ⟨h1, _, h3, h4, _⟩ := coordinate_spec c hc
  exact ⟨by rw [← h3, h1], by rw [← h4, h1]⟩

/-- The local coordinate as a polynomial. -/
noncomputable def localPoly (c : Coordinate) : ℝ[X] :=
  C (1 / ((c.xRight - c.xLeft) / 2)) * X + C (-((c.xLeft + c.xRight) / 2) / ((c.xRight - c.xLeft) / 2))

theorem localPoly_eval (c : Coordinate) (x : ℝ) : (localPoly c).eval x = c.globalToLocal x := by
  rw [c.eq_linear.2.2.2.2.2 x]
  simp only [localPoly, eval_add, eval_mul, eval_C, eval_X]
  ring

theorem comp_local_degree (c : Coordinate) (q : ℝ[X]) {d : ℕ} (h : q.natDegree ≤ d) :
    (q.comp (localPoly c)).natDegree ≤ d := by
  refine natDegree_comp_le.trans ((Nat.mul_le_mul h natDegree_linear_le).trans (by simp))

theorem comp_local_derivative (c : Coordinate) (q : ℝ[X]) (x : ℝ) :
    (derivative (q.comp (localPoly c))).eval x =
      (derivative q).eval (c.globalToLocal x) / c.localToJacobian (c.globalToLocal x) := by
  rw [derivative_comp, eval_mul, eval_comp, localPoly_eval, c.eq_linear.2.2.1]
  have e : (derivative (localPoly c)).eval x = 1 / ((c.xRight - c.xLeft) / 2) := by
    simp only [localPoly, derivative_add, derivative_mul, derivative_C, derivative_X, zero_mul, zero_add, mul_one,
      add_zero, eval_C]
  rw [e]
  ring

theorem pair_exists (hc : c.xLeft < c.xRight) {g : Correction} (hg : IsPair (p + 1) g.value g.gradient) :
    Nonempty (Pair c p g) := by
  obtain ⟨⟨q, hq, hqv⟩, hm, hn, hf, hd⟩ := hg
  obtain ⟨el, er⟩ := local_ends hc
  have h2 : ∀ ξ, (g.gradient ξ).2 = (derivative q).eval ξ := by
    intro ξ
    have := (hd ξ).2
    rw [show (fun x => (g.value x).2) = fun x => q.eval x from funext hqv] at this
    exact this.unique (q.hasDerivAt ξ)
  have e1 : ∀ ξ, (g.value ξ).1 = (q.comp (-X)).eval ξ := by
    intro ξ; rw [hm, hqv]; simp
  have h1 : ∀ ξ, (g.gradient ξ).1 = (derivative (q.comp (-X))).eval ξ := by
    intro ξ
    have := (hd ξ).1
    rw [show (fun x => (g.value x).1) = fun x => (q.comp (-X)).eval x from funext e1] at this
    exact this.unique ((q.comp (-X)).hasDerivAt ξ)
  have dm : (q.comp (-X)).natDegree ≤ p + 1 := natDegree_comp_le.trans (by simp [hq])
  refine ⟨⟨(q.comp (-X)).comp (localPoly c), q.comp (localPoly c), comp_local_degree c _ dm,
    comp_local_degree c _ hq, fun x => ?_, fun x => ⟨?_, ?_⟩, ?_, ?_, ?_, ?_⟩⟩
  · refine Prod.ext ?_ ?_
    · rw [eval_comp (p := q.comp (-X)), localPoly_eval, ← e1]
    · dsimp only
      rw [hqv, ← localPoly_eval, ← eval_comp]
  · rw [comp_local_derivative, h1]
  · rw [comp_local_derivative, h2]
  · rw [eval_comp (p := q.comp (-X)), localPoly_eval, el, ← e1, hm, neg_neg, hn]
  · rw [eval_comp (p := q.comp (-X)), localPoly_eval, er, ← e1, hm, hf]
  · rw [eval_comp, localPoly_eval, el, ← hqv, hf]
  · rw [eval_comp, localPoly_eval, er, ← hqv, hn]

/-! ### The pieces of the residual -/

theorem nodeFlux_eq (hc : c.xLeft < c.xRight) (ph : Physics V) (K : Cell p V) (h : Built c K.setup)
    (hk : K.setup.kind ≠ .modal) (hr : Reached K.setup K.state) (j : Fin (p + 1)) :
    nodeFlux ph K j = dgFluxAt ph K (K.setup.points j) := by
  have h0 := ((value_derivatives hc h hr (K.setup.points j)).2 0).2.2.2.2 hk j
  have h1 := ((value_derivatives hc h hr (K.setup.points j)).2 1).2.2.2.2 hk j
  rw [iteratedDeriv_zero] at h0
  rw [iteratedDeriv_one, ((value_derivatives hc h hr (K.setup.points j)).1).deriv] at h1
  rw [nodeFlux, h0, h1, dgFluxAt]

theorem interior_eq (hc : c.xLeft < c.xRight) (ph : Physics V) (K : Cell p V) (h : Built c K.setup)
    (i : Fin (p + 1)) : interior ph K i = -dgFluxGradient ph K (K.setup.points i) := by
  have e : ∀ j, nodeBasisDerivatives K.setup i 1 j = K.setup.basisGradients (K.setup.points i) j := by
    intro j
    have h2 := (cached_basis_derivatives hc h j 1).1 i
    rw [iteratedDeriv_one, ((basis_derivatives hc h j _).1).deriv] at h2
    exact h2
  unfold interior
  cases K.setup.kind <;> simp only [dgFluxGradient, e]

theorem gaps_eq (hc : c.xLeft < c.xRight) (ph : Physics V) (K : Cell p V) (h : Built c K.setup)
    (hr : Reached K.setup K.state) (fl fr : V) :
    gaps ph K fl fr = (fl - dgFluxAt ph K c.xLeft, fr - dgFluxAt ph K c.xRight) := by
  have hco := (h.sane hc).2
  obtain ⟨hd, hb⟩ := value_derivatives hc h hr c.xLeft
  obtain ⟨hd', hb'⟩ := value_derivatives hc h hr c.xRight
  have l0 := (hb 0).2.2.1
  have l1 := (hb 1).2.2.1
  have r0 := (hb 0).2.2.2.1
  have r1 := (hb 1).2.2.2.1
  rw [iteratedDeriv_zero] at l0 r0
  rw [iteratedDeriv_one] at l1 r1
  rw [hd.deriv] at l1
  rw [hd'.deriv] at r1
  unfold gaps
  dsimp only
  cases K.setup.kind <;> simp only [hco, l0, l1, r0, r1, dgFluxAt]

end MiniCFD.PyFR
