import Verif.Lemmas.PyExpansion

/-! # C94: the expansions of the Python code -/

namespace MiniCFD.PyExpansion
open MiniCFD.PyQuad Polynomial
open MiniCFD.Vincent (leg leg_eval)
open MiniCFD.Spec.Gauss (ExactTo)

/-- The expansions that the four classes can build on an element; `roots_legendre` returns a rule
of Gauss. -/
inductive Built {p : ℕ} (c : Coordinate) (s : Setup p) : Prop
  | uniform (rule : Rule p) (exact : ExactTo rule.apply (2 * p + 1)) (h : onUniformRoots c rule = some s)
  | legendreRoots (rule : Rule p) (exact : ExactTo rule.apply (2 * p + 1))
      (h : onLegendreRoots c rule = some s)
  | lobatto (h : onLobattoRoots p c = some s)
  | modal (rule : Rule p) (exact : ExactTo rule.apply (2 * p + 1)) (h : modal c rule = some s)

/-- No constructor fails on an element of positive length: the matrices to invert are regular. -/
theorem constructors {p : ℕ} {c : Coordinate} (hc : c.xLeft < c.xRight) {rule : Rule p}
    (exact : ExactTo rule.apply (2 * p + 1)) :
    (∃ s, onUniformRoots c rule = some s) ∧ (∃ s, onLegendreRoots c rule = some s) ∧
    (∃ s, modal c rule = some s) ∧ (1 ≤ p → p ≤ 9 → ∃ s, onLobattoRoots p c = some s) := by
  refine ⟨lagrange_defined _ hc (uniformRoots_injective p) _, lagrange_defined _ hc (gauss_injective exact) _,
    modal_defined hc _, fun h1 h9 => ?_⟩
  obtain ⟨r, hr⟩ : ∃ r, lobatto p = some r := by interval_cases p <;> exact ⟨_, rfl⟩
  rw [onLobattoRoots, hr]
  exact lagrange_defined _ hc (lobatto_sound hr).2.2.2.2.2.1.injective _

section lemmas
variable {p : ℕ} {c : Coordinate} {s : Setup p}

theorem lobatto_cases (h : onLobattoRoots p c = some s) :
    ∃ rule, lobatto p = some rule ∧ lagrange .lobatto c rule.x rule = some s := by
  unfold onLobattoRoots at h
  simpa only [Option.bind_eq_some_iff] using h

theorem Built.sane (hc : c.xLeft < c.xRight) (h : Built c s) : Sane s ∧ s.coordinate = c := by
  cases h with
  | uniform rule _ h =>
    have := lagrange_sane (by simp) hc h
    exact ⟨this.1, this.2.2.2.1⟩
  | legendreRoots rule _ h =>
    have := lagrange_sane (by simp) hc h
    exact ⟨this.1, this.2.2.2.1⟩
  | lobatto h =>
    obtain ⟨rule, _, h⟩ := lobatto_cases h
    have := lagrange_sane (by simp) hc h
    exact ⟨this.1, this.2.2.2.1⟩
  | modal rule _ h => exact ⟨(modal_sane hc h).1, (modal_sane hc h).2.2.1⟩

/-- The Lagrange expansions. -/
theorem Built.nodal (hc : c.xLeft < c.xRight) (h : Built c s) (hk : s.kind ≠ .modal) :
    Function.Injective s.nodes ∧
      ∀ x i, s.basisValues x i = PyPoly.basisValue s.nodes (c.globalToLocal x) i := by
  have aux : ∀ kind ≠ Kind.modal, ∀ nodes : Fin (p + 1) → ℝ, ∀ rule,
      lagrange kind c nodes rule = some s → Function.Injective s.nodes ∧
      ∀ x i, s.basisValues x i = PyPoly.basisValue s.nodes (c.globalToLocal x) i := by
    intro kind hkind nodes rule hl
    obtain ⟨_, h1, _, _, _, h2, h3⟩ := lagrange_sane hkind hc hl
    exact ⟨h2 ▸ h1, h2 ▸ h3⟩
  cases h with
  | uniform rule _ h => exact aux _ (by simp) _ _ h
  | legendreRoots rule _ h => exact aux _ (by simp) _ _ h
  | lobatto h =>
    obtain ⟨rule, _, h⟩ := lobatto_cases h
    exact aux _ (by simp) _ _ h
  | modal rule _ h => exact absurd (modal_sane hc h).2.1 hk

end lemmas

variable {p : ℕ} {c : Coordinate} {s : Setup p}

/-! ### The basis -/

/-- The basis functions are polynomials of degree at most `p`; those of a Lagrange expansion are one
at their own sample point and zero at the others; those of a Legendre expansion are the Legendre
polynomials of the local coordinate. -/
theorem basis_values (hc : c.xLeft < c.xRight) (h : Built c s) (i : Fin (p + 1)) :
    (∃ q : ℝ[X], q.natDegree ≤ p ∧ ∀ x, s.basisValues x i = q.eval x) ∧
    (s.kind ≠ .modal → ∀ j, s.basisValues (s.points j) i = if i = j then 1 else 0) ∧
    (s.kind = .modal → ∀ x, s.basisValues x i = Vincent.legendre i (c.globalToLocal x)) := by
  obtain ⟨hs, he⟩ := h.sane hc
  refine ⟨⟨tpoly s.coordinate.xCenter fun l => s.toTaylor l i, tpoly_natDegree _ _, fun x => ?_⟩, fun hk j => ?_,
    fun hk x => ?_⟩
  · rw [tpoly_eval, hs.basis]
  · obtain ⟨hi, hb⟩ := h.nodal hc hk
    rw [hb, Setup.points, samplePoints, he, (coordinate_spec c hc).1]
    exact (PyPoly.lagrange_basis hi i).1 j
  · rw [Setup.basisValues, hk, he]

/-- Gradients, Hessians and derivatives of all orders of the basis functions, as computed through the
Taylor basis, are the derivatives of their values. -/
theorem basis_derivatives (hc : c.xLeft < c.xRight) (h : Built c s) (i : Fin (p + 1)) (x : ℝ) :
    HasDerivAt (fun x => s.basisValues x i) (s.basisGradients x i) x ∧
    HasDerivAt (fun x => s.basisGradients x i) (s.basisHessians x i) x ∧
    ∀ k, iteratedDeriv k (fun x => s.basisValues x i) x = s.basisDerivatives x k i := by
  obtain ⟨hs, he⟩ := h.sane hc
  have hv : (fun x => s.basisValues x i) = fun x => s.basisDerivatives x 0 i := by
    funext x
    rw [hs.basis, Setup.basisDerivatives]
    exact Finset.sum_congr rfl fun l _ => by rw [taylorDerivatives_eq, taylorValues_eq]; simp
  have hg : ∀ x, s.basisGradients x i = s.basisDerivatives x 1 i := fun x => by
    simp only [Setup.basisGradients, Setup.basisDerivatives, taylorGradients_eq]
  have hh : ∀ x, s.basisHessians x i = s.basisDerivatives x 2 i := fun x => by
    simp only [Setup.basisHessians, Setup.basisDerivatives, taylorHessians_eq]
  have step : ∀ k x, HasDerivAt (fun x => s.basisDerivatives x k i) (s.basisDerivatives x (k + 1) i) x :=
    fun k x => HasDerivAt.fun_sum fun l _ => (hasDerivAt_taylor _ k l x).mul_const _
  refine ⟨?_, ?_, fun k => ?_⟩
  · rw [hv, hg]; exact step 0 x
  · rw [hh, show (fun x => s.basisGradients x i) = fun x => s.basisDerivatives x 1 i from funext hg]
    exact step 1 x
  · rw [hv, iteratedDeriv_family (fun k x => s.basisDerivatives x k i) step]

theorem basisDerivatives_high (s : Setup p) (x : ℝ) {k : ℕ} (hk : p < k) (i : Fin (p + 1)) :
    s.basisDerivatives x k i = 0 := by
  refine Finset.sum_eq_zero fun l _ => ?_
  rw [taylorDerivatives_eq, Nat.descFactorial_of_lt (by omega)]
  simp

/-- So are the derivatives that are cached at the nodes and at the ends of the element. -/
theorem cached_basis_derivatives (hc : c.xLeft < c.xRight) (h : Built c s) (i : Fin (p + 1)) (k : ℕ) :
    (∀ j, nodeBasisDerivatives s j k i = iteratedDeriv k (fun x => s.basisValues x i) (s.points j)) ∧
    boundaryBasisDerivatives s k true i = iteratedDeriv k (fun x => s.basisValues x i) c.xLeft ∧
    boundaryBasisDerivatives s k false i = iteratedDeriv k (fun x => s.basisValues x i) c.xRight := by
  have hd := fun x => (basis_derivatives hc h i x).2.2 k
  obtain ⟨hs, he⟩ := h.sane hc
  have hnode : ∀ j, nodeBasisDerivatives s j k i =
      iteratedDeriv k (fun x => s.basisValues x i) (s.points j) := by
    intro j
    rw [hd, nodeBasisDerivatives]
    split_ifs with h0 h1
    · rw [h0]
    · exact (basisDerivatives_high s _ h1 i).symm
    · rfl
  have ends : ∀ b, (s.kind ≠ .lobatto → boundaryBasisDerivatives s k b i =
      iteratedDeriv k (fun x => s.basisValues x i) (s.end_ b)) := by
    intro b hk
    rw [hd, boundaryBasisDerivatives]
    cases e : s.kind with
    | uniform => rfl
    | modal => rfl
    | lobatto => exact absurd e hk
    | legendreRoots =>
      dsimp only
      split_ifs with h1
      · exact (basisDerivatives_high s _ h1 i).symm
      · rfl
  refine ⟨hnode, ?_⟩
  by_cases hk : s.kind = .lobatto
  · cases h with
    | uniform rule _ h => rw [(lagrange_sane (by simp) hc h).2.2.1] at hk; cases hk
    | legendreRoots rule _ h => rw [(lagrange_sane (by simp) hc h).2.2.1] at hk; cases hk
    | modal rule _ h => rw [(modal_sane hc h).2.1] at hk; cases hk
    | lobatto h =>
      obtain ⟨rule, hr, h⟩ := lobatto_cases h
      have hn := (lagrange_sane (by simp) hc h).2.2.2.2.2.1
      obtain ⟨h0, h1, _⟩ := lobatto_sound hr
      have p0 : s.points 0 = c.xLeft := by
        rw [Setup.points, samplePoints, he, hn, h0]; exact (coordinate_spec c hc).2.2.1
      have p1 : s.points (Fin.last p) = c.xRight := by
        rw [Setup.points, samplePoints, he, hn, h1]; exact (coordinate_spec c hc).2.2.2.1
      simp only [boundaryBasisDerivatives, hk, if_true, Bool.false_eq_true, if_false, hnode, p0, p1, and_self]
  · exact ⟨by rw [ends true hk, Setup.end_, he]; rfl, by rw [ends false hk, Setup.end_, he]; rfl⟩

/-! ### States -/

section state
variable {V : Type*} [NormedAddCommGroup V] [NormedSpace ℝ V]

/-- The states that the three setters can reach. -/
inductive Reached (s : Setup p) (st : State p V) : Prop
  | coeff (a : Fin (p + 1) → V) (h : st = setCoeff s a)
  | taylor (t : Fin (p + 1) → V) (h : st = setTaylor s t)
  | approximate (f : ℝ → V) (h : st = approximate s f)

theorem apply_mul (a b : Matrix (Fin (p + 1)) (Fin (p + 1)) ℝ) (v : Fin (p + 1) → V) :
    apply a (apply b v) = apply (a * b) v := by
  funext i
  simp only [apply, Finset.smul_sum, smul_smul, Matrix.mul_apply, Finset.sum_smul]
  exact Finset.sum_comm

theorem apply_one (v : Fin (p + 1) → V) : apply 1 v = v := by
  funext i
  rw [apply, Finset.sum_eq_single i]
  · simp
  · intro j _ hj; rw [Matrix.one_apply_ne (Ne.symm hj), zero_smul]
  · simp

/-- Setting the coefficients and setting the Taylor coefficients are the same thing seen from two
sides: each setter undoes the other, and every reachable state comes from its own coefficients. -/
theorem round_trip (hc : c.xLeft < c.xRight) (h : Built c s) (a t : Fin (p + 1) → V) :
    (setCoeff s a).coeff = a ∧ (setTaylor s t).taylor = t ∧
    setTaylor s (setCoeff s a).taylor = setCoeff s a ∧ setCoeff s (setTaylor s t).coeff = setTaylor s t := by
  obtain ⟨hs, _⟩ := h.sane hc
  refine ⟨rfl, rfl, ?_, ?_⟩
  · have : apply s.fromTaylor (apply s.toTaylor a) = a := by rw [apply_mul, hs.fromTo, apply_one]
    simp only [setTaylor, setCoeff, this]
  · have : apply s.toTaylor (apply s.fromTaylor t) = t := by rw [apply_mul, hs.toFrom, apply_one]
    simp only [setTaylor, setCoeff, this]

theorem Reached.eq_setCoeff (hc : c.xLeft < c.xRight) (h : Built c s) {st : State p V} (hr : Reached s st) :
    st = setCoeff s st.coeff := by
  cases hr with
  | coeff a h => subst h; rfl
  | taylor t ht => subst ht; exact ((round_trip hc h t t).2.2.2).symm
  | approximate f hf =>
    subst hf
    unfold PyExpansion.approximate
    cases s.kind <;> rfl

/-- The function that a state represents is the combination of the basis with its coefficients. -/
theorem value_eq (hc : c.xLeft < c.xRight) (h : Built c s) {st : State p V} (hr : Reached s st) (x : ℝ) :
    s.value st x = ∑ i, s.basisValues x i • st.coeff i := by
  obtain ⟨hs, _⟩ := h.sane hc
  rw [hr.eq_setCoeff hc h]
  simp only [Setup.value, taylorValue, setCoeff, apply, hs.basis, Finset.smul_sum, Finset.sum_smul, smul_smul]
  exact Finset.sum_comm

/-- Its values at the sample points are the coefficients of a Lagrange expansion. -/
theorem value_at_points (hc : c.xLeft < c.xRight) (h : Built c s) (hk : s.kind ≠ .modal) {st : State p V}
    (hr : Reached s st) (j : Fin (p + 1)) : s.value st (s.points j) = st.coeff j := by
  rw [value_eq hc h hr, Finset.sum_eq_single j]
  · rw [(basis_values hc h j).2.1 hk, if_pos rfl, one_smul]
  · intro i _ hi; rw [(basis_values hc h i).2.1 hk, if_neg hi, zero_smul]
  · simp

/-- All the ways to ask for a derivative agree with the derivative of the value: `global_to_gradient`,
`global_to_derivatives` up to the degree, the derivatives of the basis, the cached ones at nodes and
ends. -/
theorem value_derivatives (hc : c.xLeft < c.xRight) (h : Built c s) {st : State p V} (hr : Reached s st) (x : ℝ) :
    HasDerivAt (s.value st) (taylorGradient s.coordinate.xCenter st.taylor x) x ∧
    ∀ k, (∑ i, s.basisDerivatives x k i • st.coeff i) = iteratedDeriv k (s.value st) x ∧
      taylorDerivative s.coordinate.xCenter st.taylor x k =
        (if k ≤ p then some (iteratedDeriv k (s.value st) x) else none) ∧
      boundaryDerivatives s st k true = iteratedDeriv k (s.value st) c.xLeft ∧
      boundaryDerivatives s st k false = iteratedDeriv k (s.value st) c.xRight ∧
      (s.kind ≠ .modal → ∀ j, nodeDerivatives s st j k = iteratedDeriv k (s.value st) (s.points j)) := by
  obtain ⟨hs, he⟩ := h.sane hc
  let F : ℕ → ℝ → V := fun k x => ∑ l : Fin (p + 1), taylorDerivatives s.coordinate.xCenter x k l • st.taylor l
  have hF0 : s.value st = F 0 := by
    funext x
    simp only [F, Setup.value, taylorValue, taylorDerivatives_eq, taylorValues_eq, Nat.descFactorial_zero,
      Nat.cast_one, one_mul, Nat.sub_zero]
  have step : ∀ k x, HasDerivAt (F k) (F (k + 1) x) x :=
    fun k x => HasDerivAt.fun_sum fun l _ => (hasDerivAt_taylor _ k l x).smul_const _
  have hit : ∀ k, iteratedDeriv k (s.value st) = F k := fun k => by rw [hF0, iteratedDeriv_family F step]
  have hb : ∀ k x, (∑ i, s.basisDerivatives x k i • st.coeff i) = iteratedDeriv k (s.value st) x := by
    intro k x
    rw [hit]
    have e := hr.eq_setCoeff hc h
    have et : st.taylor = apply s.toTaylor st.coeff := by rw [e]; rfl
    simp only [F, et, apply, Setup.basisDerivatives, Finset.smul_sum, Finset.sum_smul, smul_smul]
    exact Finset.sum_comm
  have hnode : s.kind ≠ .modal → ∀ k j, nodeDerivatives s st j k = iteratedDeriv k (s.value st) (s.points j) := by
    intro hm k j
    rw [nodeDerivatives]
    split_ifs with h0
    · subst h0; rw [iteratedDeriv_zero, value_at_points hc h hm hr]
    · rw [← hb]
      refine Finset.sum_congr rfl fun i _ => ?_
      rw [(cached_basis_derivatives hc h i k).1 j, (basis_derivatives hc h i _).2.2 k]
  have hbound : ∀ k b y, (∀ i, boundaryBasisDerivatives s k b i =
      iteratedDeriv k (fun x => s.basisValues x i) y) → (s.kind = .lobatto →
      s.points (if b then 0 else Fin.last p) = y) →
      boundaryDerivatives s st k b = iteratedDeriv k (s.value st) y := by
    intro k b y hy hl
    have : ∑ i, boundaryBasisDerivatives s k b i • st.coeff i = iteratedDeriv k (s.value st) y := by
      rw [← hb]
      exact Finset.sum_congr rfl fun i _ => by rw [hy, (basis_derivatives hc h i _).2.2 k]
    rw [boundaryDerivatives]
    cases e : s.kind with
    | lobatto =>
      dsimp only
      rw [hnode (by simp [e]), hl e]
    | uniform => exact this
    | modal => exact this
    | legendreRoots => exact this
  have hends : s.kind = .lobatto → s.points 0 = c.xLeft ∧ s.points (Fin.last p) = c.xRight := by
    intro hk
    cases h with
    | uniform rule _ h => rw [(lagrange_sane (by simp) hc h).2.2.1] at hk; cases hk
    | legendreRoots rule _ h => rw [(lagrange_sane (by simp) hc h).2.2.1] at hk; cases hk
    | modal rule _ h => rw [(modal_sane hc h).2.1] at hk; cases hk
    | lobatto h =>
      obtain ⟨rule, hr, h⟩ := lobatto_cases h
      have hn := (lagrange_sane (by simp) hc h).2.2.2.2.2.1
      obtain ⟨h0, h1, _⟩ := lobatto_sound hr
      refine ⟨?_, ?_⟩
      · rw [Setup.points, samplePoints, he, hn, h0]; exact (coordinate_spec c hc).2.2.1
      · rw [Setup.points, samplePoints, he, hn, h1]; exact (coordinate_spec c hc).2.2.2.1
  refine ⟨?_, fun k => ⟨hb k x, ?_, ?_, ?_, fun hm j => hnode hm k j⟩⟩
  · have : taylorGradient s.coordinate.xCenter st.taylor x = F 1 x := by
      simp only [taylorGradient, F, taylorGradients_eq]
    rw [this, hF0]
    exact step 0 x
  · rw [hit, taylorDerivative]
    by_cases h0 : k = 0
    · subst h0; rw [if_pos rfl, if_pos (Nat.zero_le _), ← hF0]; rfl
    · rw [if_neg h0]
      by_cases hk : k ≤ p
      · rw [if_pos hk, if_pos hk]
        congr 1
        refine Finset.sum_subset (Finset.filter_subset _ _) fun l _ hl => ?_
        simp only [Finset.mem_filter, Finset.mem_univ, true_and, not_le] at hl
        rw [taylorDerivatives_eq, Nat.descFactorial_of_lt hl]; simp
      · rw [if_neg hk, if_neg hk]
  · exact hbound k true _ (fun i => (cached_basis_derivatives hc h i k).2.1) fun e => (hends e).1
  · exact hbound k false _ (fun i => (cached_basis_derivatives hc h i k).2.2) fun e => (hends e).2

/-! ### Averages -/

theorem continuous_value (s : Setup p) (st : State p V) : Continuous (s.value st) := by
  unfold Setup.value taylorValue
  simp only [taylorValues_eq]
  fun_prop

/-- An integrator that is exact to degree `p` integrates the values of a state. -/
theorem integrate_value [CompleteSpace V] {rule : Rule p} {d : ℕ} (hd : p ≤ d) (exact : ExactTo rule.apply d)
    (s : Setup p) (st : State p V) :
    (rule.integrator c).integrate (s.value st) = ∫ x in c.xLeft..c.xRight, s.value st x := by
  have hx : ∀ l : Fin (p + 1), (rule.integrator c).integrate (fun x => (x - s.coordinate.xCenter) ^ (l : ℕ)) =
      ∫ x in c.xLeft..c.xRight, (x - s.coordinate.xCenter) ^ (l : ℕ) := by
    intro l
    have := integrate_exact exact c ((X - C s.coordinate.xCenter) ^ (l : ℕ)) (by
      rw [natDegree_pow, natDegree_X_sub_C, mul_one]; omega)
    simpa only [eval_pow, eval_sub, eval_X, eval_C] using this
  unfold Setup.value taylorValue
  rw [intervalIntegral.integral_finset_sum]
  · simp only [taylorValues_eq, intervalIntegral.integral_smul_const, ← hx, Integrator.integrate_eq,
      Finset.smul_sum, Finset.sum_smul, smul_smul, smul_eq_mul]
    exact Finset.sum_comm
  · intro l _
    simp only [taylorValues_eq]
    exact Continuous.intervalIntegrable (by fun_prop) _ _

/-- `average()` is the mean value of the function over the element (on Lobatto nodes: for the closed
rules with up to six points). -/
theorem average_eq [CompleteSpace V] (hc : c.xLeft < c.xRight) (h : Built c s) (hl : s.kind = .lobatto → p ≤ 5)
    {st : State p V} (hr : Reached s st) :
    (c.xRight - c.xLeft) • st.average = ∫ x in c.xLeft..c.xRight, s.value st x := by
  have e := hr.eq_setCoeff hc h
  have hlen : c.length = c.xRight - c.xLeft := c.eq_linear.1
  have hne : c.length ≠ 0 := by rw [hlen]; linarith
  have ea : st.average = mean s st.coeff st.taylor := by rw [e]; rfl
  have gauss : ∀ rule : Rule p, ∀ d, p ≤ d → ExactTo rule.apply d → s.coordinate = c →
      s.integrator = rule.integrator c → s.nodes = rule.x → s.kind ≠ .modal →
      (c.xRight - c.xLeft) • (s.coordinate.length)⁻¹ • s.integrator.integrateIndex st.coeff =
        ∫ x in c.xLeft..c.xRight, s.value st x := by
    intro rule d hd exact hco hi hn hk
    rw [hco, ← hlen, smul_smul, mul_inv_cancel₀ hne, one_smul, ← integrate_value hd exact, hi,
      Integrator.integrate_eq, Integrator.integrateIndex_eq]
    refine Finset.sum_congr rfl fun i _ => ?_
    rw [show (rule.integrator c).points i = s.points i by
      rw [Setup.points, samplePoints, hn, hco]; rfl, value_at_points hc h hk hr]
  rw [ea, mean]
  have hB := h
  cases h with
  | uniform rule exact hu =>
    obtain ⟨_, _, hk, hco, hi, _⟩ := lagrange_sane (by simp) hc hu
    rw [hk]
    dsimp only
    rw [Integrator.average, hi, show (rule.integrator c).coordinate = c from rfl, ← hlen, smul_smul,
      mul_inv_cancel₀ hne, one_smul]
    exact integrate_value (by omega) exact s st
  | legendreRoots rule exact hu =>
    obtain ⟨_, _, hk, hco, hi, hn, _⟩ := lagrange_sane (by simp) hc hu
    rw [hk]
    exact gauss rule _ (by omega) exact hco hi hn (by simp [hk])
  | lobatto hu =>
    obtain ⟨rule, hr', hu⟩ := lobatto_cases hu
    obtain ⟨_, _, hk, hco, hi, hn, _⟩ := lagrange_sane (by simp) hc hu
    have h1 : 1 ≤ p := by
      rcases Nat.eq_zero_or_pos p with rfl | h
      · cases hr'
      · exact h
    obtain ⟨r, hr1, hex⟩ := lobatto_exact h1 (hl hk)
    rw [hr'] at hr1
    cases hr1
    rw [hk]
    exact gauss rule _ (by omega) hex hco hi hn (by simp [hk])
  | modal rule exact hu =>
    obtain ⟨_, hk, hco, hi, _, hb⟩ := modal_sane hc hu
    rw [hk]
    dsimp only
    simp only [value_eq hc hB hr, hb]
    have hint : ∀ i : Fin (p + 1), ∫ x in c.xLeft..c.xRight, Vincent.legendre i (c.globalToLocal x) =
        if i = 0 then c.xRight - c.xLeft else 0 := by
      intro i
      have e3 : ∫ x in (-1 : ℝ)..1, Vincent.legendre i x = if (i : ℕ) = 0 then 2 else 0 := by
        have := leg_pair i 0
        rw [show leg 0 = 1 from rfl, mul_one, Vincent.integral] at this
        simp only [leg_eval] at this
        rw [this]
        split_ifs with h0
        · simp [h0]
        · rfl
      rw [integral_local hc (fun ξ => Vincent.legendre i ξ), e3]
      by_cases h0 : i = 0
      · rw [if_pos (by simp [h0]), if_pos h0]; ring
      · rw [if_neg (fun h : (i : ℕ) = 0 => h0 (Fin.ext h)), if_neg h0, mul_zero]
    rw [intervalIntegral.integral_finset_sum]
    · simp only [intervalIntegral.integral_smul_const, hint]
      rw [Finset.sum_eq_single 0]
      · simp
      · intro i _ hi; rw [if_neg hi, zero_smul]
      · simp
    · intro i _
      refine Continuous.intervalIntegrable ?_ _ _
      refine Continuous.smul ?_ continuous_const
      have : (fun x => Vincent.legendre i (c.globalToLocal x)) = fun x => (leg i).eval (c.globalToLocal x) := by
        funext x; rw [leg_eval]
      rw [this]
      refine (leg i).continuous.comp ?_
      rw [show c.globalToLocal = fun x => (x - (c.xLeft + c.xRight) / 2) / ((c.xRight - c.xLeft) / 2) from
        funext c.eq_linear.2.2.2.2.2]
      fun_prop

/-! ### Approximation -/

/-- The function with the given polynomial coefficients. -/
def polynomial (v : Fin (p + 1) → V) (x : ℝ) : V := ∑ k : Fin (p + 1), x ^ (k : ℕ) • v k

/-- Sampling at the nodes, `approximate` gives the interpolating polynomial. -/
theorem approximate_interpolates (hc : c.xLeft < c.xRight) (h : Built c s)
    (hk : s.kind = .uniform ∨ s.kind = .legendreRoots) (f : ℝ → V) (j : Fin (p + 1)) :
    s.value (approximate s f) (s.points j) = f (s.points j) := by
  have hm : s.kind ≠ .modal := by rcases hk with hk | hk <;> simp [hk]
  rw [value_at_points hc h hm (.approximate f rfl)]
  unfold approximate
  rcases hk with hk | hk <;> rw [hk] <;> rfl

/-- The discrete orthogonality of the Legendre polynomials at the points of Gauss. -/
theorem discrete_orthogonal {rule : Rule p} (exact : ExactTo rule.apply (2 * p + 1)) (k n : Fin (p + 1)) :
    ∑ i, rule.w i * (Vincent.legendre k (rule.x i) * Vincent.legendre n (rule.x i)) =
      if k = n then 2 / (2 * (k : ℝ) + 1) else 0 := by
  have h1 := exact (leg k * leg n) (by
    refine natDegree_mul_le.trans ?_
    have := FR.leg_natDegree k
    have := FR.leg_natDegree n
    omega)
  have h2 := leg_pair k n
  rw [Vincent.integral] at h2
  rw [h2] at h1
  simp only [Rule.apply, eval_mul, leg_eval] at h1
  rw [h1]
  simp only [Fin.ext_iff]

/-- The projection onto the Legendre modes, computed with the `p + 1` points of Gauss, interpolates at
these points: a Legendre expansion and a Lagrange expansion on Legendre roots approximate every
function by the same polynomial. -/
theorem modal_interpolates (hc : c.xLeft < c.xRight) {rule : Rule p} (exact : ExactTo rule.apply (2 * p + 1))
    (h : modal c rule = some s) (f : ℝ → V) (j : Fin (p + 1)) :
    s.value (approximate s f) (c.localToGlobal (rule.x j)) = f (c.localToGlobal (rule.x j)) := by
  obtain ⟨_, hk, hco, hi, _, hb⟩ := modal_sane hc h
  obtain ⟨h1, _, _, _, _, _, _, _, hpos⟩ := coordinate_spec c hc
  rw [value_eq hc (.modal rule exact h) (.approximate f rfl)]
  have hcoef : ∀ k, (approximate s f).coeff k = (s.modeWeight k)⁻¹ •
      ∑ i, (rule.w i * c.localToJacobian 0 * Vincent.legendre k (rule.x i)) • f (c.localToGlobal (rule.x i)) := by
    intro k
    unfold approximate
    rw [hk]
    simp only [setCoeff]
    congr 1
    rw [hi, Integrator.integrate_eq, hco]
    refine Finset.sum_congr rfl fun i _ => ?_
    rw [smul_smul]
    simp only [Rule.integrator, h1]
    rw [c.eq_linear.2.2.1 (rule.x i), c.eq_linear.2.2.1 0]
  set J := c.localToJacobian 0 with hJ
  have hJ0 : J ≠ 0 := (hpos 0).ne'
  let A : Matrix (Fin (p + 1)) (Fin (p + 1)) ℝ := fun k i =>
    (s.modeWeight k)⁻¹ * (rule.w i * J * Vincent.legendre k (rule.x i))
  let B : Matrix (Fin (p + 1)) (Fin (p + 1)) ℝ := fun i k => Vincent.legendre k (rule.x i)
  have hAB : A * B = 1 := by
    funext k n
    rw [Matrix.mul_apply, Matrix.one_apply]
    have e : ∀ i, A k i * B i n = (s.modeWeight k)⁻¹ * J *
        (rule.w i * (Vincent.legendre k (rule.x i) * Vincent.legendre n (rule.x i))) := fun i => by
      simp only [A, B]; ring
    simp only [e, ← Finset.mul_sum, discrete_orthogonal exact]
    split_ifs with hkn
    · have : (2 * (k : ℝ) + 1) ≠ 0 := by positivity
      rw [Setup.modeWeight, hco, ← hJ]
      field_simp
    · simp
  have hBA : B * A = 1 := mul_eq_one_comm.1 hAB
  simp only [hb, hcoef, h1, Finset.smul_sum, smul_smul]
  rw [Finset.sum_comm]
  rw [Finset.sum_eq_single j]
  · rw [← Finset.sum_smul]
    have := congrFun (congrFun hBA j) j
    rw [Matrix.mul_apply, Matrix.one_apply_eq] at this
    have e : ∑ k : Fin (p + 1), Vincent.legendre k (rule.x j) * ((s.modeWeight k)⁻¹ *
        (rule.w j * J * Vincent.legendre k (rule.x j))) = 1 := this
    rw [e, one_smul]
  · intro i _ hij
    rw [← Finset.sum_smul]
    have := congrFun (congrFun hBA j) i
    rw [Matrix.mul_apply, Matrix.one_apply_ne (Ne.symm hij)] at this
    have e : ∑ k : Fin (p + 1), Vincent.legendre k (rule.x j) * ((s.modeWeight k)⁻¹ *
        (rule.w i * J * Vincent.legendre k (rule.x i))) = 0 := this
    rw [e, zero_smul]
  · simp

/-- A reachable state is determined by the values of its function at `p + 1` distinct points. -/
theorem value_unique (hc : c.xLeft < c.xRight) {s s' : Setup p} (h : s.coordinate = c) (h' : s'.coordinate = c)
    {nodes : Fin (p + 1) → ℝ} (hn : Function.Injective nodes) (st st' : State p V)
    (heq : ∀ j, s.value st (c.localToGlobal (nodes j)) = s'.value st' (c.localToGlobal (nodes j))) :
    s.value st = s'.value st' := by
  have key : ∀ t : Fin (p + 1) → V, ∀ x, taylorValue c.xCenter t x = ∑ j,
      PyPoly.basisValue nodes (c.globalToLocal x) j • taylorValue c.xCenter t (c.localToGlobal (nodes j)) := by
    intro t x
    simp only [taylorValue, Finset.smul_sum, smul_smul]
    rw [Finset.sum_comm]
    refine Finset.sum_congr rfl fun l _ => ?_
    rw [← Finset.sum_smul]
    congr 1
    have := global_reproduces hc hn ((X - C c.xCenter) ^ (l : ℕ)) (by
      rw [natDegree_pow, natDegree_X_sub_C, mul_one]; omega) x
    simp only [eval_pow, eval_sub, eval_X, eval_C, samplePoints] at this
    rw [taylorValues_eq, ← this]
    exact Finset.sum_congr rfl fun j _ => by rw [taylorValues_eq, mul_comm]
  funext x
  have e1 := key st.taylor x
  have e2 := key st'.taylor x
  simp only [Setup.value, h, h'] at heq ⊢
  rw [e1, e2]
  exact Finset.sum_congr rfl fun j _ => by rw [heq]

theorem modal_eq_nodal (hc : c.xLeft < c.xRight) {rule : Rule p} (exact : ExactTo rule.apply (2 * p + 1))
    {s s' : Setup p} (h : modal c rule = some s) (h' : onLegendreRoots c rule = some s') (f : ℝ → V) :
    s.value (approximate s f) = s'.value (approximate s' f) := by
  obtain ⟨_, _, hk', hco', _, hn', _⟩ := lagrange_sane (by simp) hc h'
  refine value_unique hc (modal_sane hc h).2.2.1 hco' (gauss_injective exact) _ _ fun j => ?_
  rw [modal_interpolates hc exact h]
  have := approximate_interpolates hc (.legendreRoots rule exact h') (.inr hk') f j
  rw [Setup.points, samplePoints, hco', hn'] at this
  exact this.symm

/-- `approximate` reproduces polynomials of degree at most `p`, except on Lobatto nodes. -/
theorem approximate_reproduces_partial (hc : c.xLeft < c.xRight) (h : Built c s) (hk : s.kind ≠ .lobatto)
    (v : Fin (p + 1) → V) : s.value (approximate s (polynomial v)) = polynomial v := by
  have nodes : ∃ nodes : Fin (p + 1) → ℝ, Function.Injective nodes ∧
      ∀ j, s.value (approximate s (polynomial v)) (c.localToGlobal (nodes j)) =
        polynomial v (c.localToGlobal (nodes j)) := by
    have hB := h
    cases h with
    | uniform rule exact hu =>
      obtain ⟨_, _, hk, hco, _, hn, _⟩ := lagrange_sane (by simp) hc hu
      refine ⟨s.nodes, (hB.nodal hc (by simp [hk])).1, fun j => ?_⟩
      have := approximate_interpolates hc hB (.inl hk) (polynomial v) j
      rwa [Setup.points, samplePoints, hco] at this
    | legendreRoots rule exact hu =>
      obtain ⟨_, _, hk, hco, _, hn, _⟩ := lagrange_sane (by simp) hc hu
      refine ⟨s.nodes, (hB.nodal hc (by simp [hk])).1, fun j => ?_⟩
      have := approximate_interpolates hc hB (.inr hk) (polynomial v) j
      rwa [Setup.points, samplePoints, hco] at this
    | lobatto hu =>
      obtain ⟨rule, _, hu⟩ := lobatto_cases hu
      exact absurd (lagrange_sane (by simp) hc hu).2.2.1 hk
    | modal rule exact hu =>
      exact ⟨rule.x, gauss_injective exact, fun j => modal_interpolates hc exact hu _ j⟩
  obtain ⟨nodes, hn, hv⟩ := nodes
  have hco := (h.sane hc).2
  funext x
  have key : ∀ g : Fin (p + 1) → ℝ[X], (∀ l, (g l).natDegree ≤ p) → ∀ t : Fin (p + 1) → V,
      ∑ l, (g l).eval x • t l = ∑ j, PyPoly.basisValue nodes (c.globalToLocal x) j •
        ∑ l, (g l).eval (c.localToGlobal (nodes j)) • t l := by
    intro g hg t
    simp only [Finset.smul_sum, smul_smul]
    rw [Finset.sum_comm]
    refine Finset.sum_congr rfl fun l _ => ?_
    rw [← Finset.sum_smul, ← global_reproduces hc hn (g l) (hg l) x]
    congr 1
    exact Finset.sum_congr rfl fun j _ => mul_comm _ _
  have e1 := key (fun l => (X - C c.xCenter) ^ (l : ℕ)) (fun l => by
    rw [natDegree_pow, natDegree_X_sub_C, mul_one]; omega) (approximate s (polynomial v)).taylor
  have e2 := key (fun l => X ^ (l : ℕ)) (fun l => by rw [natDegree_X_pow]; omega) v
  simp only [eval_pow, eval_sub, eval_X, eval_C] at e1 e2
  simp only [Setup.value, taylorValue, taylorValues_eq, hco, polynomial] at hv ⊢
  rw [e2]
  refine e1.trans ?_
  exact Finset.sum_congr rfl fun j _ => by rw [hv]

/-- On Lobatto nodes the samples at the ends are taken `1e-10` inside: already linear functions are
not reproduced; constants are. -/
theorem lobatto_samples (hc : c.xLeft < c.xRight) (h : onLobattoRoots p c = some s) (f : ℝ → V)
    (j : Fin (p + 1)) : s.value (approximate s f) (s.points j) =
      if j = Fin.last p then f (s.points j - 1 / 10 ^ 10)
      else if j = 0 then f (s.points j + 1 / 10 ^ 10) else f (s.points j) := by
  obtain ⟨rule, _, hu⟩ := lobatto_cases h
  obtain ⟨_, _, hk, _⟩ := lagrange_sane (by simp) hc hu
  rw [value_at_points hc (.lobatto h) (by simp [hk]) (.approximate f rfl)]
  unfold approximate
  rw [hk]
  simp only [setCoeff, nudge]
  push_cast
  rfl

theorem lobatto_not_reproduced (hc : c.xLeft < c.xRight) (h : onLobattoRoots p c = some s) :
    s.value (approximate s fun x => x) ≠ fun x => x := by
  intro e
  have h1 := lobatto_samples hc h (fun x : ℝ => x) (Fin.last p)
  rw [e, if_pos rfl] at h1
  norm_num at h1
  linarith

end state

/-! ### Inner products -/

/-- `get_basis_innerproducts` is the mass matrix: exact for the rules of Gauss, where it is diagonal
with the quadrature weights (Lagrange on Legendre roots) or the mode weights (Legendre); on Lobatto
nodes it is the diagonal matrix of the weights. -/
theorem mass_matrix (hc : c.xLeft < c.xRight) (h : Built c s) (i j : Fin (p + 1)) :
    (s.kind ≠ .lobatto → s.innerProducts i j =
      ∫ x in c.xLeft..c.xRight, s.basisValues x i * s.basisValues x j) ∧
    (s.kind = .legendreRoots ∨ s.kind = .lobatto →
      s.innerProducts i j = if i = j then s.integrator.weights i else 0) ∧
    (s.kind = .modal → s.innerProducts i j = if i = j then s.modeWeight i else 0) := by
  have exactPart : ∀ rule : Rule p, ExactTo rule.apply (2 * p + 1) → s.integrator = rule.integrator c →
      s.innerProducts i j = ∫ x in c.xLeft..c.xRight, s.basisValues x i * s.basisValues x j := by
    intro rule exact hi
    obtain ⟨⟨q, hq, hqv⟩, _⟩ := basis_values hc h i
    obtain ⟨⟨r, hr, hrv⟩, _⟩ := basis_values hc h j
    rw [Setup.innerProducts, hi]
    simp only [hqv, hrv]
    have := integrate_exact exact c (q * r) (natDegree_mul_le.trans (by omega))
    simpa only [eval_mul] using this
  have diagPart : ∀ rule : Rule p, s.coordinate = c → s.integrator = rule.integrator c → s.nodes = rule.x →
      s.kind ≠ .modal → s.innerProducts i j = if i = j then s.integrator.weights i else 0 := by
    intro rule hco hi hn hk
    have hp : ∀ k, (rule.integrator c).points k = s.points k := fun k => by
      rw [Setup.points, samplePoints, hn, hco]; rfl
    rw [Setup.innerProducts, hi, Integrator.integrate_eq]
    simp only [hp, (basis_values hc h _).2.1 hk]
    split_ifs with hij
    · subst hij; simp
    · refine Finset.sum_eq_zero fun k _ => ?_
      split_ifs with h1 h2
      · exact absurd (h1.trans h2.symm) hij
      · simp
      · simp
      · simp
  have hB := h
  cases h with
  | uniform rule exact hu =>
    obtain ⟨_, _, hk, hco, hi, hn, _⟩ := lagrange_sane (by simp) hc hu
    exact ⟨fun _ => exactPart rule exact hi, by simp [hk], by simp [hk]⟩
  | legendreRoots rule exact hu =>
    obtain ⟨_, _, hk, hco, hi, hn, _⟩ := lagrange_sane (by simp) hc hu
    exact ⟨fun _ => exactPart rule exact hi, fun _ => diagPart rule hco hi hn (by simp [hk]), by simp [hk]⟩
  | lobatto hu =>
    obtain ⟨rule, _, hu⟩ := lobatto_cases hu
    obtain ⟨_, _, hk, hco, hi, hn, _⟩ := lagrange_sane (by simp) hc hu
    exact ⟨by simp [hk], fun _ => diagPart rule hco hi hn (by simp [hk]), by simp [hk]⟩
  | modal rule exact hu =>
    obtain ⟨_, hk, hco, hi, _, hb⟩ := modal_sane hc hu
    refine ⟨fun _ => exactPart rule exact hi, by simp [hk], fun _ => ?_⟩
    rw [exactPart rule exact hi]
    simp only [hb]
    rw [integral_local hc fun ξ => Vincent.legendre i ξ * Vincent.legendre j ξ]
    have := leg_pair i j
    rw [Vincent.integral] at this
    simp only [eval_mul, leg_eval] at this
    rw [this, Setup.modeWeight, hco, c.eq_linear.2.2.1]
    simp only [Fin.ext_iff]
    split_ifs
    · ring
    · ring

/-- The energies of the modes add up to the square of the norm of the function. -/
theorem parseval (hc : c.xLeft < c.xRight) (h : Built c s) (hk : s.kind = .modal) {st : State p ℝ}
    (hr : Reached s st) : ∑ k, modeEnergy s st k = ∫ x in c.xLeft..c.xRight, s.value st x ^ 2 := by
  have hcont : ∀ i, Continuous fun x => s.basisValues x i := fun i => by
    obtain ⟨q, _, hqv⟩ := (basis_values hc h i).1
    rw [funext hqv]; exact q.continuous
  have e : ∀ x, s.value st x ^ 2 = ∑ i, ∑ j, (s.basisValues x i * s.basisValues x j) * (st.coeff i * st.coeff j) := by
    intro x
    rw [value_eq hc h hr, sq, Finset.sum_mul_sum]
    exact Finset.sum_congr rfl fun i _ => Finset.sum_congr rfl fun j _ => by simp only [smul_eq_mul]; ring
  simp only [e]
  rw [intervalIntegral.integral_finset_sum]
  · refine Finset.sum_congr rfl fun i _ => ?_
    rw [intervalIntegral.integral_finset_sum]
    · simp only [intervalIntegral.integral_mul_const, ← (mass_matrix hc h i _).1 (by simp [hk]),
        (mass_matrix hc h i _).2.2 hk]
      rw [Finset.sum_eq_single i]
      · rw [if_pos rfl, modeEnergy]; ring
      · intro j _ hj; rw [if_neg (Ne.symm hj), zero_mul]
      · simp
    · intro j _
      exact (((hcont i).mul (hcont j)).mul_const _).intervalIntegrable _ _
  · intro i _
    exact (continuous_finset_sum _ fun j _ => ((hcont i).mul (hcont j)).mul_const _).intervalIntegrable _ _

/-- The lower-order view of a Legendre expansion keeps the average and the lower modes, and the
difference is orthogonal to all polynomials of its degree: it is the projection. -/
theorem truncate_spec (hc : c.xLeft < c.xRight) {rule : Rule p} (exact : ExactTo rule.apply (2 * p + 1))
    (h : modal c rule = some s) {d : ℕ} (hd : d ≤ p) {st : State p ℝ} (hr : Reached s st) :
    (truncate hd s st).average = st.average ∧
    (∀ x, taylorValue c.xCenter (truncate hd s st).taylor x =
      ∑ k : Fin (d + 1), Vincent.legendre k (c.globalToLocal x) * st.coeff (Fin.castLE (by omega) k)) ∧
    ∀ q : ℝ[X], q.natDegree ≤ d →
      ∫ x in c.xLeft..c.xRight, (s.value st x - taylorValue c.xCenter (truncate hd s st).taylor x) * q.eval x = 0 := by
  obtain ⟨hs, hk, hco, hi, hto, hb⟩ := modal_sane hc h
  have hB : Built c s := .modal rule exact h
  have hav : (truncate hd s st).average = st.average := by
    have e := hr.eq_setCoeff hc hB
    have : st.average = st.coeff 0 := by rw [e]; simp only [setCoeff, mean, hk]
    rw [this]
    rfl
  obtain ⟨_, hcen, h3, _, _, h6⟩ := c.eq_linear
  have hval : ∀ x, taylorValue c.xCenter (truncate hd s st).taylor x =
      ∑ k : Fin (d + 1), Vincent.legendre k (c.globalToLocal x) * st.coeff (Fin.castLE (by omega) k) := by
    intro x
    simp only [taylorValue, truncate, apply, hto, smul_eq_mul, Finset.mul_sum]
    rw [Finset.sum_comm]
    refine Finset.sum_congr rfl fun k _ => ?_
    rw [← leg_eval, eval_eq_sum_range' (lt_of_le_of_lt (FR.leg_natDegree k) k.2), Finset.sum_range,
      Finset.sum_mul]
    refine Finset.sum_congr rfl fun l _ => ?_
    rw [taylorValues_eq, h6, h3, hcen, div_pow (x - (c.xLeft + c.xRight) / 2)]
    simp only [Fin.val_castLE]
    generalize (x - (c.xLeft + c.xRight) / 2) ^ (l : ℕ) = a
    generalize ((c.xRight - c.xLeft) / 2) ^ (l : ℕ) = b
    ring
  refine ⟨hav, hval, fun q hq => ?_⟩
  have hsplit : ∀ x, s.value st x - taylorValue c.xCenter (truncate hd s st).taylor x =
      ∑ k : Fin (p + 1), if d < (k : ℕ) then Vincent.legendre k (c.globalToLocal x) * st.coeff k else 0 := by
    intro x
    rw [value_eq hc hB hr, hval]
    simp only [hb, smul_eq_mul]
    have e1 := Finset.sum_ite (s := (Finset.univ : Finset (Fin (p + 1)))) (p := fun k => d < (k : ℕ))
      (fun k => Vincent.legendre k (c.globalToLocal x) * st.coeff k)
      (fun k => Vincent.legendre k (c.globalToLocal x) * st.coeff k)
    simp only [ite_self] at e1
    rw [e1, ← Finset.sum_filter, add_sub_assoc, add_eq_left, sub_eq_zero]
    symm
    refine Finset.sum_bij (fun k _ => Fin.castLE (by omega) k) ?_ ?_ ?_ ?_
    · intro k _; simp only [Finset.mem_filter, Finset.mem_univ, true_and, Fin.val_castLE]; omega
    · intro a _ b _ hab; exact Fin.castLE_injective _ hab
    · intro k hk
      simp only [Finset.mem_filter, Finset.mem_univ, true_and, not_lt] at hk
      exact ⟨⟨k, by omega⟩, Finset.mem_univ _, rfl⟩
    · intro k _; rfl
  obtain ⟨r, hrd, hre⟩ := exists_local (c := c) q hq
  have hq' : ∀ x, q.eval x = r.eval (c.globalToLocal x) := fun x => by
    rw [hre, (coordinate_spec c hc).2.1]
  have hcont : Continuous c.globalToLocal := by
    rw [show c.globalToLocal = _ from funext h6]; fun_prop
  simp only [hsplit, Finset.sum_mul]
  rw [intervalIntegral.integral_finset_sum]
  · refine Finset.sum_eq_zero fun k _ => ?_
    by_cases hdk : d < (k : ℕ)
    · simp only [if_pos hdk, hq']
      have e : ∀ x, Vincent.legendre k (c.globalToLocal x) * st.coeff k * r.eval (c.globalToLocal x) =
          (fun ξ => (leg k * r).eval ξ * st.coeff k) (c.globalToLocal x) := fun x => by
        simp only [eval_mul, leg_eval]; ring
      simp only [e]
      rw [integral_local hc fun ξ => (leg k * r).eval ξ * st.coeff k, intervalIntegral.integral_mul_const]
      have : ∫ ξ in (-1 : ℝ)..1, (leg k * r).eval ξ = 0 := by
        refine Vincent.leg_orthogonal k r (lt_of_le_of_lt degree_le_natDegree ?_)
        exact_mod_cast lt_of_le_of_lt hrd hdk
      rw [this]; ring
    · simp [if_neg hdk]
  · intro k _
    refine Continuous.intervalIntegrable ?_ _ _
    split_ifs
    · refine Continuous.mul (Continuous.mul ?_ continuous_const) q.continuous
      simp only [← leg_eval]
      exact (leg k).continuous.comp hcont
    · fun_prop

/-! ### Example -/

/-- The rule of Gauss with two points. -/
noncomputable def gauss2 : Rule 1 := ⟨![-√(1 / 3), √(1 / 3)], ![1, 1]⟩

theorem gauss2_exact : ExactTo gauss2.apply 3 := by
  refine Rule.exact_of_moments fun k hk => ?_
  have h3 : √(1 / 3 : ℝ) ^ 2 = 1 / 3 := Real.sq_sqrt (by norm_num)
  have e : gauss2.apply (fun x => x ^ k) = (-√(1 / 3)) ^ k + √(1 / 3) ^ k := by
    simp [Rule.apply, gauss2, Fin.sum_univ_two]
  rw [e]
  obtain rfl | rfl | rfl | rfl : k = 0 ∨ k = 1 ∨ k = 2 ∨ k = 3 := by omega
  · norm_num [Gauss.mom]
  · norm_num [Gauss.mom]
  · rw [neg_sq, h3]; norm_num [Gauss.mom]
  · rw [neg_pow]; norm_num [Gauss.mom]

/-- Linear expansions of all three kinds on the element `[0, 2]`, and one on Lobatto nodes. -/
example : (∃ s, Built (p := 1) (.linear 0 2) s ∧ s.kind = .uniform) ∧
    (∃ s, Built (p := 1) (.linear 0 2) s ∧ s.kind = .legendreRoots) ∧
    (∃ s, Built (p := 1) (.linear 0 2) s ∧ s.kind = .modal) ∧
    (∃ s, Built (p := 1) (.linear 0 2) s ∧ s.kind = .lobatto) := by
  have hc : (Coordinate.linear 0 2).xLeft < (Coordinate.linear 0 2).xRight := by
    simp [Coordinate.xLeft, Coordinate.xRight]
  obtain ⟨⟨a, ha⟩, ⟨b, hb⟩, ⟨m, hm⟩, hl⟩ := constructors hc gauss2_exact
  obtain ⟨l, hl⟩ := hl le_rfl (by norm_num)
  refine ⟨⟨a, .uniform _ gauss2_exact ha, (lagrange_sane (by simp) hc ha).2.2.1⟩,
    ⟨b, .legendreRoots _ gauss2_exact hb, (lagrange_sane (by simp) hc hb).2.2.1⟩,
    ⟨m, .modal _ gauss2_exact hm, (modal_sane hc hm).2.1⟩, ⟨l, .lobatto hl, ?_⟩⟩
  obtain ⟨_, _, hl⟩ := lobatto_cases hl
  exact (lagrange_sane (by simp) hc hl).2.2.1

end MiniCFD.PyExpansion
