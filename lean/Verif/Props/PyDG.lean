import Verif.Lemmas.PyDG

/-! # C95: the discontinuous Galerkin schemes of the Python code -/

namespace MiniCFD.PyDG
open MiniCFD.PyQuad MiniCFD.PyExpansion Polynomial
open MiniCFD.Spec.Gauss (ExactTo)

variable {p : ℕ} {c : Coordinate} {V : Type*} [NormedAddCommGroup V] [NormedSpace ℝ V]

/-- The function with the given coefficients. -/
noncomputable def field (s : Setup p) (r : Fin (p + 1) → V) (x : ℝ) : V := s.value (setCoeff s r) x

theorem field_eq (hc : c.xLeft < c.xRight) {s : Setup p} (h : Built c s) (r : Fin (p + 1) → V) (x : ℝ) :
    field s r x = ∑ i, s.basisValues x i • r i := value_eq hc h (.coeff r rfl) x

/-! ### The weak form -/

/-- The residual of an element is defined and is the function that satisfies the weak form for every
test polynomial, the integrals being taken with the quadrature of the element. -/
theorem weak_form (hc : c.xLeft < c.xRight) (ph : Physics V) (K : Cell p V) (h : Built c K.setup)
    (hr : Reached K.setup K.state) (f : FaceData V) :
    ∃ r, cellResidual ph K f = some r ∧ ∀ φ : ℝ[X], φ.natDegree ≤ p →
      K.setup.integrator.integrate (fun x => φ.eval x • field K.setup r x) =
        K.setup.integrator.integrate (fun x => (derivative φ).eval x • dgFluxAt ph K x) +
        φ.eval c.xLeft • f.leftFlux - φ.eval c.xRight • f.rightFlux -
        ((derivative φ).eval c.xLeft • f.leftJump + (derivative φ).eval c.xRight • f.rightJump) := by
  obtain ⟨r, hres, hM⟩ := divideMass_spec hc h (load ph K f)
  refine ⟨r, hres, fun φ hφ => ?_⟩
  obtain ⟨a, ha, hda⟩ := exists_coeff hc h φ hφ
  have lhs : K.setup.integrator.integrate (fun x => φ.eval x • field K.setup r x) =
      ∑ i, a i • load ph K f i := by
    simp only [← hM, Setup.innerProducts, field_eq hc h, ha, Integrator.integrate_eq, Finset.smul_sum,
      Finset.sum_smul, smul_smul, smul_eq_mul, Finset.mul_sum, Finset.sum_mul]
    rw [Finset.sum_comm]
    calc _ = ∑ j, ∑ q, ∑ i, (K.setup.integrator.weights q * (a i * K.setup.basisValues
          (K.setup.integrator.points q) i * K.setup.basisValues (K.setup.integrator.points q) j)) • r j := rfl
      _ = ∑ j, ∑ i, ∑ q, (K.setup.integrator.weights q * (a i * K.setup.basisValues
          (K.setup.integrator.points q) i * K.setup.basisValues (K.setup.integrator.points q) j)) • r j :=
        Finset.sum_congr rfl fun j _ => Finset.sum_comm
      _ = _ := by
        rw [Finset.sum_comm]
        refine Finset.sum_congr rfl fun i _ => Finset.sum_congr rfl fun j _ =>
          Finset.sum_congr rfl fun q _ => ?_
        congr 1
        ring
  rw [lhs]
  have hload : ∀ i, load ph K f i = K.setup.integrator.integrate
        (fun x => K.setup.basisGradients x i • dgFluxAt ph K x) +
      K.setup.basisValues c.xLeft i • f.leftFlux - K.setup.basisValues c.xRight i • f.rightFlux -
      (K.setup.basisGradients c.xLeft i • f.leftJump + K.setup.basisGradients c.xRight i • f.rightJump) := by
    intro i
    obtain ⟨b1, b2, b3, b4⟩ := boundary_zero hc h i
    simp only [load, interior_eq hc ph K h hr, b1, b2, b3, b4]
  simp only [hload, smul_sub, smul_add, Finset.sum_sub_distrib, Finset.sum_add_distrib, smul_smul,
    ← Finset.sum_smul, ← ha, ← hda]
  congr 3
  simp only [hda, Integrator.integrate_eq, Finset.smul_sum, Finset.sum_smul, smul_smul]
  rw [Finset.sum_comm]
  refine Finset.sum_congr rfl fun q _ => Finset.sum_congr rfl fun i _ => ?_
  congr 1
  ring

/-- For the elements with a rule of Gauss the integral at the left is exact. -/
theorem weak_form_exact [CompleteSpace V] (hc : c.xLeft < c.xRight) {s : Setup p} (h : Built c s)
    (hk : s.kind ≠ .lobatto) (r : Fin (p + 1) → V) (φ : ℝ[X]) (hφ : φ.natDegree ≤ p) :
    s.integrator.integrate (fun x => φ.eval x • field s r x) =
      ∫ x in c.xLeft..c.xRight, φ.eval x • field s r x := by
  obtain ⟨rule, exact, hi⟩ : ∃ rule : Rule p, ExactTo rule.apply (2 * p + 1) ∧ s.integrator = rule.integrator c := by
    cases h with
    | uniform rule exact h => exact ⟨rule, exact, (lagrange_sane (by simp) hc h).2.2.2.2.1⟩
    | legendreRoots rule exact h => exact ⟨rule, exact, (lagrange_sane (by simp) hc h).2.2.2.2.1⟩
    | modal rule exact h => exact ⟨rule, exact, (modal_sane hc h).2.2.2.1⟩
    | lobatto h =>
      obtain ⟨rule, _, h⟩ := lobatto_cases h
      exact absurd (lagrange_sane (by simp) hc h).2.2.1 hk
  choose q hq using fun i => (basis_values hc h i).1
  have e : (fun x => φ.eval x • field s r x) = fun x => ∑ i, (φ * q i).eval x • r i := by
    funext x
    simp only [field_eq hc h, Finset.smul_sum, smul_smul, eval_mul, (hq _).2]
  rw [e, hi, integrate_comb exact (fun i => φ * q i) (fun i => natDegree_mul_le.trans (by
    have := (hq i).1; omega)) r]

/-- The weak form determines the residual. -/
theorem residual_unique (hc : c.xLeft < c.xRight) {s : Setup p} (h : Built c s)
    (d : Fin (p + 1) → V)
    (h0 : ∀ φ : ℝ[X], φ.natDegree ≤ p → s.integrator.integrate (fun x => φ.eval x • field s d x) = 0) :
    d = 0 := by
  have hM : ∀ i, ∑ j, s.innerProducts i j • d j = 0 := by
    intro i
    obtain ⟨q, hq, hqv⟩ := (basis_values hc h i).1
    rw [← h0 q hq]
    simp only [Setup.innerProducts, field_eq hc h, ← hqv, Integrator.integrate_eq, Finset.smul_sum,
      Finset.sum_smul, smul_smul, smul_eq_mul]
    rw [Finset.sum_comm]
  have hdet : s.innerProducts.det ≠ 0 := by
    by_cases hk : s.kind = .lobatto
    · have hdiag : s.innerProducts = Matrix.diagonal fun i => s.integrator.weights i := by
        funext i j
        rw [(mass_matrix hc h i j).2.1 (.inr hk), Matrix.diagonal_apply]
      rw [hdiag, Matrix.det_diagonal]
      refine Finset.prod_ne_zero_iff.2 fun i _ => ?_
      have := diag_pos hc h i
      rw [(mass_matrix hc h i i).2.1 (.inr hk), if_pos rfl] at this
      exact this.ne'
    · exact mass_det hc h hk
  have := apply_mul s.innerProducts⁻¹ s.innerProducts d
  rw [Matrix.nonsing_inv_mul _ (isUnit_iff_ne_zero.2 hdet), apply_one] at this
  rw [← this, show PyExpansion.apply s.innerProducts d = 0 from funext hM]
  funext i
  simp [PyExpansion.apply]

/-! ### The choice of the basis does not matter -/

/-- What a face or a flux sees of an element depends only on the function it holds. -/
theorem dgFluxAt_eq (hc : c.xLeft < c.xRight) (ph : Physics V) (K : Cell p V) (h : Built c K.setup)
    (hr : Reached K.setup K.state) (x : ℝ) :
    dgFluxAt ph K x = dgFlux ph K x (K.setup.value K.state x) (deriv (K.setup.value K.state) x) := by
  rw [dgFluxAt, ((value_derivatives hc h hr x).1).deriv]

/-- Two elements that hold the same function on the same interval. -/
structure Same (c : Coordinate) (K K' : Cell p V) : Prop where
  built : Built c K.setup
  built' : Built c K'.setup
  reached : Reached K.setup K.state
  reached' : Reached K'.setup K'.state
  value : K.setup.value K.state = K'.setup.value K'.state
  viscosity : K.viscosity = K'.viscosity

theorem Same.flux (hc : c.xLeft < c.xRight) (ph : Physics V) {K K' : Cell p V} (h : Same c K K') :
    dgFluxAt ph K = dgFluxAt ph K' := by
  funext x
  rw [dgFluxAt_eq hc ph K h.built h.reached, dgFluxAt_eq hc ph K' h.built' h.reached', h.value]
  simp only [dgFlux, Cell.extra, h.viscosity]

/-- Elements that use the same quadrature rule and hold the same function have residuals that are the
same function, whatever their bases (uniform roots, Legendre roots, Legendre polynomials). -/
theorem basis_independent (hc : c.xLeft < c.xRight) (ph : Physics V) {K K' : Cell p V} (h : Same c K K')
    (hi : K.setup.integrator = K'.setup.integrator) (f : FaceData V) {r r' : Fin (p + 1) → V}
    (hres : cellResidual ph K f = some r) (hres' : cellResidual ph K' f = some r') :
    field K.setup r = field K'.setup r' := by
  obtain ⟨r1, h1, hw⟩ := weak_form hc ph K h.built h.reached f
  obtain ⟨r2, h2, hw'⟩ := weak_form hc ph K' h.built' h.reached' f
  rw [hres] at h1; cases h1
  rw [hres'] at h2; cases h2
  -- the second function in the first basis
  choose q hq using fun k => (basis_values hc h.built' k).1
  choose A hA _ using fun k => exists_coeff hc h.built (q k) (hq k).1
  have e' : ∀ x, field K'.setup r' x = field K.setup (fun i => ∑ k, A k i • r' k) x := by
    intro x
    rw [field_eq hc h.built', field_eq hc h.built]
    simp only [(hq _).2, hA, Finset.smul_sum, Finset.sum_smul, smul_smul]
    rw [Finset.sum_comm]
    exact Finset.sum_congr rfl fun i _ => Finset.sum_congr rfl fun k _ => by rw [mul_comm]
  have hd : (fun i => r i - ∑ k, A k i • r' k) = 0 := by
    refine residual_unique hc h.built _ fun φ hφ => ?_
    have e1 : ∀ x, field K.setup (fun i => r i - ∑ k, A k i • r' k) x =
        field K.setup r x - field K'.setup r' x := by
      intro x
      rw [e', field_eq hc h.built, field_eq hc h.built, field_eq hc h.built, ← Finset.sum_sub_distrib]
      exact Finset.sum_congr rfl fun i _ => smul_sub _ _ _
    have e2 : K.setup.integrator.integrate (fun x => φ.eval x • field K.setup r x) =
        K.setup.integrator.integrate (fun x => φ.eval x • field K'.setup r' x) := by
      rw [hw φ hφ, h.flux hc ph, hi, ← hw' φ hφ]
    simp only [e1, smul_sub, Integrator.integrate_eq, Finset.sum_sub_distrib]
    simp only [Integrator.integrate_eq] at e2
    rw [e2, sub_self]
  funext x
  rw [e']
  congr 1
  funext i
  exact sub_eq_zero.1 (congrFun hd i)

/-- What an interface computes depends only on the functions at its two sides. -/
theorem interface_same {cl cr : Coordinate} (hl : cl.xLeft < cl.xRight) (hr : cr.xLeft < cr.xRight)
    (ph : Physics V) {K K' L L' : Cell p V} (h : Same cl K K') (h' : Same cr L L') :
    interface ph K L = interface ph K' L' := by
  have bl : ∀ k, boundaryDerivatives K.setup K.state k false = boundaryDerivatives K'.setup K'.state k false := by
    intro k
    rw [((value_derivatives hl h.built h.reached 0).2 k).2.2.2.1,
      ((value_derivatives hl h.built' h.reached' 0).2 k).2.2.2.1, h.value]
  have br : ∀ k, boundaryDerivatives L.setup L.state k true = boundaryDerivatives L'.setup L'.state k true := by
    intro k
    rw [((value_derivatives hr h'.built h'.reached 0).2 k).2.2.1,
      ((value_derivatives hr h'.built' h'.reached' 0).2 k).2.2.1, h'.value]
  simp only [interface, bl, br, Cell.extra, h.viscosity, h'.viscosity, (h.built.sane hl).2, (h.built'.sane hl).2,
    (h'.built.sane hr).2, (h'.built'.sane hr).2]

/-- Two grids with the same functions, elements and boundary values. -/
structure SameGrid {n : ℕ} (co : Fin (n + 2) → Coordinate) (g g' : Grid p n V) : Prop where
  same : ∀ i, Same (co i) (g.cells i) (g'.cells i)
  rule : ∀ i, (g.cells i).setup.integrator = (g'.cells i).setup.integrator
  boundary : g.boundary = g'.boundary

/-- The three variants of the scheme compute the same function of the same function on every grid. -/
theorem scheme_independent {n : ℕ} {co : Fin (n + 2) → Coordinate} (hc : ∀ i, (co i).xLeft < (co i).xRight)
    (ph : Physics V) {g g' : Grid p n V} (h : SameGrid co g g') (i : Fin (n + 2)) {r r' : Fin (p + 1) → V}
    (hres : residual ph g i = some r) (hres' : residual ph g' i = some r') :
    field (g.cells i).setup r = field (g'.cells i).setup r' := by
  have hb : ∀ (i : Fin (n + 2)) (b : Bool),
      boundaryDerivatives (g.cells i).setup (g.cells i).state 0 b =
        boundaryDerivatives (g'.cells i).setup (g'.cells i).state 0 b := by
    intro i b
    have hs := h.same i
    cases b
    · rw [((value_derivatives (hc i) hs.built hs.reached 0).2 0).2.2.2.1,
        ((value_derivatives (hc i) hs.built' hs.reached' 0).2 0).2.2.2.1, hs.value]
    · rw [((value_derivatives (hc i) hs.built hs.reached 0).2 0).2.2.1,
        ((value_derivatives (hc i) hs.built' hs.reached' 0).2 0).2.2.1, hs.value]
  have hl : ∀ i, leftFace ph g i = leftFace ph g' i := by
    intro i
    unfold leftFace
    split_ifs with h0
    · rw [h.boundary]
      cases g'.boundary with
      | none => exact interface_same (hc _) (hc _) ph (h.same _) (h.same _)
      | some u => simp only [hb]
    · exact interface_same (hc _) (hc _) ph (h.same _) (h.same _)
  have hf : faceData ph g i = faceData ph g' i := by
    have hr : rightFace ph g i = rightFace ph g' i := by
      unfold rightFace
      split_ifs with h0
      · rw [h.boundary]
        cases g'.boundary with
        | none => exact hl 0
        | some u => simp only [hb]
      · exact hl _
    simp only [faceData, hl, hr]
  rw [residual, hf] at hres
  exact basis_independent (hc i) ph (h.same i) (h.rule i) _ hres hres'

/-! ### Conservation -/

/-- What an element reports as average is the mean of its function in its own quadrature. -/
theorem length_average (hc : c.xLeft < c.xRight) {s : Setup p} (h : Built c s) (r : Fin (p + 1) → V) :
    c.length • (setCoeff s r).average = s.integrator.integrate (field s r) := by
  have hne : c.length ≠ 0 := by rw [c.eq_linear.1]; linarith
  have gauss : s.kind = .legendreRoots ∨ s.kind = .lobatto → s.coordinate = c →
      c.length • (s.coordinate.length)⁻¹ • s.integrator.integrateIndex r = s.integrator.integrate (field s r) := by
    intro hk hco
    have hm : s.kind ≠ .modal := by rcases hk with hk | hk <;> simp [hk]
    rw [hco, smul_smul, mul_inv_cancel₀ hne, one_smul, Integrator.integrate_eq, Integrator.integrateIndex_eq]
    refine Finset.sum_congr rfl fun i _ => ?_
    rw [points_eq hc h hk, field, value_at_points hc h hm (.coeff r rfl)]
    rfl
  obtain ⟨hs, hco⟩ := h.sane hc
  simp only [setCoeff, mean]
  cases hk : s.kind with
  | uniform =>
    dsimp only
    have hic : s.integrator.coordinate = c := by
      cases h with
      | uniform rule exact h => rw [(lagrange_sane (by simp) hc h).2.2.2.2.1]; rfl
      | legendreRoots rule exact h => rw [(lagrange_sane (by simp) hc h).2.2.1] at hk; cases hk
      | modal rule exact h => rw [(modal_sane hc h).2.1] at hk; cases hk
      | lobatto h =>
        obtain ⟨_, _, h⟩ := lobatto_cases h
        rw [(lagrange_sane (by simp) hc h).2.2.1] at hk; cases hk
    rw [Integrator.average, hic, smul_smul, mul_inv_cancel₀ hne, one_smul]
    rfl
  | legendreRoots => exact gauss (.inl hk) hco
  | lobatto => exact gauss (.inr hk) hco
  | modal =>
    dsimp only
    -- the first mode is the constant one
    have h0 : ∀ x, s.basisValues x 0 = 1 := fun x => by
      rw [(basis_values hc h 0).2.2 hk]; rfl
    have e : s.integrator.integrate (field s r) = ∑ j, s.innerProducts 0 j • r j := by
      simp only [Setup.innerProducts, h0, one_mul, Integrator.integrate_eq, field_eq hc h, Finset.smul_sum,
        Finset.sum_smul, smul_smul, smul_eq_mul]
      rw [Finset.sum_comm]
    rw [e, Finset.sum_eq_single 0]
    · rw [(mass_matrix hc h 0 0).2.2 hk, if_pos rfl, Setup.modeWeight, hco, c.eq_linear.2.2.1, c.eq_linear.1]
      congr 1
      simp
    · intro j _ hj; rw [(mass_matrix hc h 0 j).2.2 hk, if_neg (Ne.symm hj), zero_smul]
    · simp

/-- The average of the residual of an element balances its two fluxes. -/
theorem cell_balance (hc : c.xLeft < c.xRight) (ph : Physics V) (K : Cell p V) (h : Built c K.setup)
    (hr : Reached K.setup K.state) (f : FaceData V) {r : Fin (p + 1) → V} (hres : cellResidual ph K f = some r) :
    c.length • (setCoeff K.setup r).average = f.leftFlux - f.rightFlux := by
  obtain ⟨r', h', hw⟩ := weak_form hc ph K h hr f
  rw [hres] at h'; cases h'
  have := hw 1 (by simp)
  simp only [eval_one, one_smul, derivative_one, eval_zero, zero_smul, add_zero, sub_zero] at this
  rw [length_average hc h, show field K.setup r = fun x => field K.setup r x from rfl, this]
  simp [Integrator.integrate_eq]

theorem sum_cyclic {n : ℕ} (F : Fin (n + 2) → V) : ∑ i, (F i - F (i + 1)) = 0 := by
  rw [Finset.sum_sub_distrib, sub_eq_zero]
  exact (Equiv.sum_comp (Equiv.addRight (1 : Fin (n + 2))) F).symm

/-- What flows through the faces adds up to what flows through the ends. -/
theorem sum_faces {n : ℕ} (ph : Physics V) (g : Grid p n V) :
    ∑ i, ((leftFace ph g i).1 - (rightFace ph g i).1) =
      match g.boundary with
      | none => 0
      | some _ => (leftFace ph g 0).1 - (rightFace ph g (Fin.last _)).1 := by
  cases hbd : g.boundary with
  | none =>
    have h2 : ∀ i, rightFace ph g i = leftFace ph g (i + 1) := by
      intro i
      unfold rightFace
      split_ifs with h
      · rw [hbd, h, Fin.last_add_one]
      · rfl
    simp only [h2]
    exact sum_cyclic fun i => (leftFace ph g i).1
  | some u =>
    have h2 : ∀ i : Fin (n + 1), rightFace ph g i.castSucc = leftFace ph g i.succ := by
      intro i
      unfold rightFace
      rw [if_neg (Fin.castSucc_lt_last i).ne, Fin.coeSucc_eq_succ]
    rw [Finset.sum_sub_distrib, Fin.sum_univ_succ (fun i => (leftFace ph g i).1),
      Fin.sum_univ_castSucc (fun i => (rightFace ph g i).1)]
    simp only [h2]
    abel

/-- On a periodic grid the scheme neither creates nor destroys anything; otherwise only through the two
ends. -/
theorem conservation {n : ℕ} {co : Fin (n + 2) → Coordinate} (hc : ∀ i, (co i).xLeft < (co i).xRight)
    (ph : Physics V) (g : Grid p n V) (hb : ∀ i, Built (co i) (g.cells i).setup)
    (hr : ∀ i, Reached (g.cells i).setup (g.cells i).state) {r : Fin (n + 2) → Fin (p + 1) → V}
    (hres : ∀ i, residual ph g i = some (r i)) :
    ∑ i, (co i).length • (setCoeff (g.cells i).setup (r i)).average =
      match g.boundary with
      | none => 0
      | some _ => (leftFace ph g 0).1 - (rightFace ph g (Fin.last _)).1 := by
  have h1 : ∀ i, (co i).length • (setCoeff (g.cells i).setup (r i)).average =
      (leftFace ph g i).1 - (rightFace ph g i).1 := fun i =>
    cell_balance (hc i) ph (g.cells i) (hb i) (hr i) _ (hres i)
  simp only [h1]
  exact sum_faces ph g

/-- The fluxes at the ends of a grid with boundary values: Riemann problems between the value given for that end
and the value of the element next to it. -/
theorem conservation_ends {n : ℕ} {co : Fin (n + 2) → Coordinate} (hc : ∀ i, (co i).xLeft < (co i).xRight)
    (ph : Physics V) (g : Grid p n V) (hb : ∀ i, Built (co i) (g.cells i).setup)
    (hr : ∀ i, Reached (g.cells i).setup (g.cells i).state) {r : Fin (n + 2) → Fin (p + 1) → V}
    (hres : ∀ i, residual ph g i = some (r i)) {uLeft uRight : V} (hg : g.boundary = some (uLeft, uRight)) :
    ∑ i, (co i).length • (setCoeff (g.cells i).setup (r i)).average =
      ph.upwind uLeft ((g.cells 0).setup.value (g.cells 0).state (co 0).xLeft) -
        ph.upwind ((g.cells (Fin.last _)).setup.value (g.cells (Fin.last _)).state (co (Fin.last _)).xRight) uRight := by
  rw [conservation hc ph g hb hr hres, hg]
  have h1 := (value_derivatives (hc 0) (hb 0) (hr 0) 0).2 0 |>.2.2.1
  have h2 := (value_derivatives (hc (Fin.last _)) (hb _) (hr (Fin.last _)) 0).2 0 |>.2.2.2.1
  rw [iteratedDeriv_zero] at h1 h2
  simp only [leftFace, rightFace, if_true, hg, h1, h2]

/-! ### Uniform states -/

/-- The quadratures of all elements are exact for derivatives of polynomials of degree `2 p`, except the
ones with Lobatto rules of doubtful weights. -/
theorem integrate_derivative (hc : c.xLeft < c.xRight) {s : Setup p} (h : Built c s)
    (hl : s.kind = .lobatto → p ≤ 5) (W : ℝ[X])
    (hW : W.natDegree ≤ 2 * p ∨ W.natDegree ≤ 2 * p + 2 ∧ s.kind ≠ .lobatto) :
    s.integrator.integrate (fun x => (derivative W).eval x) = W.eval c.xRight - W.eval c.xLeft := by
  obtain ⟨rule, d, exact, hd, hi⟩ : ∃ (rule : Rule p) (d : ℕ), ExactTo rule.apply d ∧ W.natDegree ≤ d + 1 ∧
      s.integrator = rule.integrator c := by
    cases h with
    | uniform rule exact h => exact ⟨rule, _, exact, by omega, (lagrange_sane (by simp) hc h).2.2.2.2.1⟩
    | legendreRoots rule exact h => exact ⟨rule, _, exact, by omega, (lagrange_sane (by simp) hc h).2.2.2.2.1⟩
    | modal rule exact h => exact ⟨rule, _, exact, by omega, (modal_sane hc h).2.2.2.1⟩
    | lobatto h =>
      obtain ⟨rule, hr, h⟩ := lobatto_cases h
      obtain ⟨_, _, hk, _, hi, _⟩ := lagrange_sane (by simp) hc h
      have h1 : 1 ≤ p := by
        rcases Nat.eq_zero_or_pos p with rfl | h
        · cases hr
        · exact h
      obtain ⟨r', hr', hex⟩ := lobatto_exact h1 (hl hk)
      rw [hr] at hr'; cases hr'
      exact ⟨rule, _, hex, by rcases hW with hW | hW; · omega
                              · exact absurd hk hW.2, hi⟩
  rw [hi, integrate_exact exact c (derivative W) ((natDegree_derivative_le W).trans (by omega))]
  exact intervalIntegral.integral_eq_sub_of_hasDerivAt (fun x _ => W.hasDerivAt x)
    ((derivative W).continuous.intervalIntegrable _ _)

/-- The faces of a uniform state carry its flux and no jump. -/
theorem uniform_faces {n : ℕ} {co : Fin (n + 2) → Coordinate} (hc : ∀ i, (co i).xLeft < (co i).xRight)
    (ph : Physics V) (g : Grid p n V) (hb : ∀ i, Built (co i) (g.cells i).setup)
    (hr : ∀ i, Reached (g.cells i).setup (g.cells i).state) (v : V)
    (hv : ∀ i x, (g.cells i).setup.value (g.cells i).state x = v) (hup : ph.upwind v v = ph.convective v)
    (hdiff : ∀ nu, ph.diffusive v 0 nu = 0) (hbd : g.boundary = none ∨ g.boundary = some (v, v))
    (i : Fin (n + 2)) : faceData ph g i = ⟨ph.convective v, ph.convective v, 0, 0⟩ ∧
      ∀ x, dgFluxAt ph (g.cells i) x = ph.convective v := by
  have hval : ∀ i, (g.cells i).setup.value (g.cells i).state = fun _ => v := fun i => funext (hv i)
  have bd : ∀ i b, boundaryDerivatives (g.cells i).setup (g.cells i).state 0 b = v := by
    intro i b
    cases b
    · rw [((value_derivatives (hc i) (hb i) (hr i) 0).2 0).2.2.2.1, iteratedDeriv_zero, hval]
    · rw [((value_derivatives (hc i) (hb i) (hr i) 0).2 0).2.2.1, iteratedDeriv_zero, hval]
  have hit1 : iteratedDeriv 1 (fun _ : ℝ => v) = fun _ => 0 := by
    rw [iteratedDeriv_one]; funext x; simp
  have hit2 : iteratedDeriv 2 (fun _ : ℝ => v) = fun _ => 0 := by
    rw [iteratedDeriv_succ, hit1]; funext x; simp
  have bd1 : ∀ i b, boundaryDerivatives (g.cells i).setup (g.cells i).state 1 b = 0 := by
    intro i b
    cases b
    · rw [((value_derivatives (hc i) (hb i) (hr i) 0).2 1).2.2.2.1, hval, hit1]
    · rw [((value_derivatives (hc i) (hb i) (hr i) 0).2 1).2.2.1, hval, hit1]
  have bd2 : ∀ i b, boundaryDerivatives (g.cells i).setup (g.cells i).state 2 b = 0 := by
    intro i b
    cases b
    · rw [((value_derivatives (hc i) (hb i) (hr i) 0).2 2).2.2.2.1, hval, hit2]
    · rw [((value_derivatives (hc i) (hb i) (hr i) 0).2 2).2.2.1, hval, hit2]
  have half : (2 : ℝ)⁻¹ • (v + v) = v := by
    rw [← two_smul ℝ v, smul_smul]; norm_num
  have hint : ∀ i j, interface ph (g.cells i) (g.cells j) = (ph.convective v, 0) := by
    intro i j
    unfold interface
    simp only [bd, bd1, bd2, ite_self, sub_self, add_zero, smul_zero, interfaceGradient, half, hdiff, hup, sub_zero]
  have hleft : ∀ i, leftFace ph g i = (ph.convective v, 0) := by
    intro i
    unfold leftFace
    split_ifs
    · rcases hbd with hbd | hbd <;> rw [hbd]
      · exact hint _ _
      · simp only [bd, hup, zero_smul]
    · exact hint _ _
  have hright : ∀ i, rightFace ph g i = (ph.convective v, 0) := by
    intro i
    unfold rightFace
    split_ifs
    · rcases hbd with hbd | hbd <;> rw [hbd]
      · exact hleft _
      · simp only [bd, hup, zero_smul]
    · exact hleft _
  have hflux : ∀ x, dgFluxAt ph (g.cells i) x = ph.convective v := by
    intro x
    rw [dgFluxAt_eq (hc i) ph _ (hb i) (hr i), hval]
    simp only [dgFlux, deriv_const, hdiff, sub_zero, ite_self]
  exact ⟨by simp only [faceData, hleft, hright], hflux⟩

/-- A uniform state stays what it is, for every consistent Riemann solver and every equation without
diffusive flux at zero gradient, on periodic grids and with the same state given at both ends. -/
theorem free_stream {n : ℕ} {co : Fin (n + 2) → Coordinate} (hc : ∀ i, (co i).xLeft < (co i).xRight)
    (ph : Physics V) (g : Grid p n V) (hb : ∀ i, Built (co i) (g.cells i).setup)
    (hl : ∀ i, (g.cells i).setup.kind = .lobatto → p ≤ 5)
    (hr : ∀ i, Reached (g.cells i).setup (g.cells i).state) (v : V)
    (hv : ∀ i x, (g.cells i).setup.value (g.cells i).state x = v) (hup : ph.upwind v v = ph.convective v)
    (hdiff : ∀ nu, ph.diffusive v 0 nu = 0) (hbd : g.boundary = none ∨ g.boundary = some (v, v))
    (i : Fin (n + 2)) : residual ph g i = some 0 := by
  obtain ⟨hfaces, hflux⟩ := uniform_faces hc ph g hb hr v hv hup hdiff hbd i
  obtain ⟨r, hres, hw⟩ := weak_form (hc i) ph (g.cells i) (hb i) (hr i) (faceData ph g i)
  rw [residual, hres, residual_unique (hc i) (hb i) r fun φ hφ => ?_]
  rw [hw φ hφ]
  simp only [hflux, hfaces, smul_zero, add_zero, sub_zero]
  have e := integrate_derivative (hc i) (hb i) (hl i) φ (.inl (by omega))
  have e2 : (g.cells i).setup.integrator.integrate (fun x => (derivative φ).eval x • ph.convective v) =
      (g.cells i).setup.integrator.integrate (fun x => (derivative φ).eval x) • ph.convective v := by
    simp only [Integrator.integrate_eq, Finset.sum_smul, smul_smul, smul_eq_mul]
  rw [e2, e, sub_smul]
  abel

/-! ### Consistency -/

/-- Where the flux of the solution is a polynomial within the reach of the quadrature and the faces
carry its values at the ends, the residual is the projection of minus its derivative: the scheme solves
the conservation law. -/
theorem consistent [CompleteSpace V] (hc : c.xLeft < c.xRight) (ph : Physics V) (K : Cell p V)
    (h : Built c K.setup) (hk : K.setup.kind ≠ .lobatto) (hr : Reached K.setup K.state) {m : ℕ}
    (q : Fin m → ℝ[X]) (hq : ∀ k, (q k).natDegree ≤ p + 2) (v : Fin m → V)
    (hF : ∀ x, dgFluxAt ph K x = ∑ k, (q k).eval x • v k) {r : Fin (p + 1) → V}
    (hres : cellResidual ph K ⟨dgFluxAt ph K c.xLeft, dgFluxAt ph K c.xRight, 0, 0⟩ = some r)
    (φ : ℝ[X]) (hφ : φ.natDegree ≤ p) :
    ∫ x in c.xLeft..c.xRight, φ.eval x • field K.setup r x =
      ∫ x in c.xLeft..c.xRight, φ.eval x • (-deriv (fun y => dgFluxAt ph K y) x) := by
  obtain ⟨r', h', hw⟩ := weak_form hc ph K h hr ⟨dgFluxAt ph K c.xLeft, dgFluxAt ph K c.xRight, 0, 0⟩
  rw [hres] at h'; cases h'
  rw [← weak_form_exact hc h hk r φ hφ, hw φ hφ]
  simp only [smul_zero, add_zero, sub_zero]
  obtain ⟨rule, exact, hi⟩ : ∃ rule : Rule p, ExactTo rule.apply (2 * p + 1) ∧
      K.setup.integrator = rule.integrator c := by
    cases h with
    | uniform rule exact h => exact ⟨rule, exact, (lagrange_sane (by simp) hc h).2.2.2.2.1⟩
    | legendreRoots rule exact h => exact ⟨rule, exact, (lagrange_sane (by simp) hc h).2.2.2.2.1⟩
    | modal rule exact h => exact ⟨rule, exact, (modal_sane hc h).2.2.2.1⟩
    | lobatto h =>
      obtain ⟨rule, _, h⟩ := lobatto_cases h
      exact absurd (lagrange_sane (by simp) hc h).2.2.1 hk
  have e1 : K.setup.integrator.integrate (fun x => (derivative φ).eval x • dgFluxAt ph K x) =
      ∫ x in c.xLeft..c.xRight, (derivative φ).eval x • dgFluxAt ph K x := by
    have : (fun x => (derivative φ).eval x • dgFluxAt ph K x) =
        fun x => ∑ k, (derivative φ * q k).eval x • v k := by
      funext x
      simp only [hF, Finset.smul_sum, smul_smul, eval_mul]
    rw [this, hi, integrate_comb exact _ (fun k => ?_) v]
    rcases Nat.eq_zero_or_pos φ.natDegree with h0 | h0
    · have : derivative φ = 0 := by
        rw [eq_C_of_natDegree_eq_zero h0]; simp
      rw [this]; simp
    · refine natDegree_mul_le.trans ?_
      have h1 := natDegree_derivative_lt h0.ne'
      have h2 := hq k
      omega
  have hFd : ∀ x, HasDerivAt (fun y => dgFluxAt ph K y) (∑ k, (derivative (q k)).eval x • v k) x := by
    intro x
    rw [show (fun y => dgFluxAt ph K y) = fun y => ∑ k, (q k).eval y • v k from funext hF]
    exact HasDerivAt.fun_sum fun k _ => ((q k).hasDerivAt x).smul_const _
  have hprod : ∀ x, HasDerivAt (fun x => φ.eval x • dgFluxAt ph K x)
      (φ.eval x • (∑ k, (derivative (q k)).eval x • v k) + (derivative φ).eval x • dgFluxAt ph K x) x :=
    fun x => (φ.hasDerivAt x).smul (hFd x)
  have hc1 : Continuous fun x => dgFluxAt ph K x :=
    continuous_iff_continuousAt.2 fun x => (hFd x).continuousAt
  have hc2 : Continuous fun x => φ.eval x • (∑ k, (derivative (q k)).eval x • v k) :=
    φ.continuous.smul (continuous_finsetSum _ fun k _ => (derivative (q k)).continuous.smul continuous_const)
  have hc3 : Continuous fun x => (derivative φ).eval x • dgFluxAt ph K x := (derivative φ).continuous.smul hc1
  have hparts := intervalIntegral.integral_eq_sub_of_hasDerivAt (a := c.xLeft) (b := c.xRight)
    (fun x _ => hprod x) ((hc2.add hc3).intervalIntegrable _ _)
  rw [intervalIntegral.integral_add (hc2.intervalIntegrable _ _) (hc3.intervalIntegrable _ _)] at hparts
  simp only [(hFd _).deriv, smul_neg, intervalIntegral.integral_neg]
  rw [e1]
  have : ∫ x in c.xLeft..c.xRight, (derivative φ).eval x • dgFluxAt ph K x =
      φ.eval c.xRight • dgFluxAt ph K c.xRight - φ.eval c.xLeft • dgFluxAt ph K c.xLeft -
      ∫ x in c.xLeft..c.xRight, φ.eval x • (∑ k, (derivative (q k)).eval x • v k) := by
    rw [← hparts]; abel
  rw [this]
  abel

/-- Derivatives of an order above the degree vanish. -/
theorem iteratedDeriv_high (hc : c.xLeft < c.xRight) {s : Setup p} (h : Built c s) {st : State p V}
    (hr : Reached s st) {k : ℕ} (hk : p < k) (x : ℝ) : iteratedDeriv k (s.value st) x = 0 := by
  rw [← ((value_derivatives hc h hr x).2 k).1]
  exact Finset.sum_eq_zero fun i _ => by rw [basisDerivatives_high s x hk, zero_smul]

/-- Where one function passes through an interface, the interface computes its flux and no jump. -/
theorem interface_consistent {cl cr : Coordinate} (hl : cl.xLeft < cl.xRight) (hr : cr.xLeft < cr.xRight)
    (ph : Physics V) {K L : Cell p V} (hK : Built cl K.setup) (hL : Built cr L.setup)
    (rK : Reached K.setup K.state) (rL : Reached L.setup L.state) (hx : cl.xRight = cr.xLeft)
    (hv : K.setup.value K.state = L.setup.value L.state) (hnu : K.viscosity = L.viscosity)
    (hup : ∀ u, ph.upwind u u = ph.convective u) (hzero : ∀ u du nu, nu + ph.coefficient u = 0 → ph.diffusive u du nu = 0)
    (hinv : ph.inviscid = true → ∀ u, ph.coefficient u = 0) :
    interface ph K L = (dgFluxAt ph K cl.xRight, 0) := by
  have hext : ∀ x, L.extra x = K.extra x := fun x => by simp only [Cell.extra, hnu]
  have d0 : ∀ k, boundaryDerivatives K.setup K.state k false = iteratedDeriv k (K.setup.value K.state) cl.xRight :=
    fun k => ((value_derivatives hl hK rK 0).2 k).2.2.2.1
  have d1 : ∀ k, boundaryDerivatives L.setup L.state k true = iteratedDeriv k (K.setup.value K.state) cl.xRight :=
    fun k => by rw [((value_derivatives hr hL rL 0).2 k).2.2.1, hv, hx]
  set u := K.setup.value K.state cl.xRight with hu
  have half : ∀ w : V, (2 : ℝ)⁻¹ • (w + w) = w := fun w => by
    rw [← two_smul ℝ w, smul_smul]; norm_num
  have hd1 : (if 0 < p then iteratedDeriv 1 (K.setup.value K.state) cl.xRight else 0) =
      deriv (K.setup.value K.state) cl.xRight := by
    split_ifs with h0
    · rw [iteratedDeriv_one]
    · rw [← iteratedDeriv_one, iteratedDeriv_high hl hK rK (by omega)]
  have hflux : dgFluxAt ph K cl.xRight = ph.convective u -
      ph.diffusive u (deriv (K.setup.value K.state) cl.xRight) (K.extra cl.xRight) := by
    rw [dgFluxAt_eq hl ph K hK rK, dgFlux]
    split_ifs with h
    · rfl
    · rw [← hu]
      simp only [Bool.or_eq_true, Bool.not_eq_true', not_or, Bool.not_eq_true, Bool.not_eq_false] at h
      have hK0 : K.extra cl.xRight = 0 := by
        cases hkv : K.viscosity with
        | none => simp [Cell.extra, hkv]
        | some nu => rw [hkv] at h; simp at h
      rw [hzero _ _ _ (by rw [hK0, hinv h.2, add_zero]), sub_zero]
  unfold interface
  simp only [d0, d1, (hK.sane hl).2, (hL.sane hr).2, hext, ← hx, min_self, sub_self, ite_self,
    interfaceGradient, hd1, half, smul_zero, add_zero, zero_add, iteratedDeriv_zero, hup]
  rw [hflux]
  split_ifs with h
  · rw [hzero _ _ _ h, sub_zero]
  · rfl

/-- Linear advection and diffusion: inside a piece of the grid that holds one polynomial the
residual is exactly `-a u' + b u''`. -/
theorem linear_exact (hc : c.xLeft < c.xRight) (ph : Physics ℝ) (K : Cell p ℝ) (h : Built c K.setup)
    (hl : K.setup.kind = .lobatto → p ≤ 5) (hr : Reached K.setup K.state) (a b : ℝ)
    (hF : ∀ x, dgFluxAt ph K x = a * K.setup.value K.state x - b * deriv (K.setup.value K.state) x)
    {r : Fin (p + 1) → ℝ}
    (hres : cellResidual ph K ⟨dgFluxAt ph K c.xLeft, dgFluxAt ph K c.xRight, 0, 0⟩ = some r) (x : ℝ) :
    field K.setup r x = -a * deriv (K.setup.value K.state) x + b * iteratedDeriv 2 (K.setup.value K.state) x := by
  obtain ⟨r', h', hw⟩ := weak_form hc ph K h hr ⟨dgFluxAt ph K c.xLeft, dgFluxAt ph K c.xRight, 0, 0⟩
  rw [hres] at h'; cases h'
  -- the solution as a polynomial
  choose q hq using fun i => (basis_values hc h i).1
  let U : ℝ[X] := ∑ i, C (K.state.coeff i) * q i
  have hU : ∀ x, K.setup.value K.state x = U.eval x := by
    intro x
    simp only [U, eval_finsetSum, eval_mul, eval_C, value_eq hc h hr, (hq _).2, smul_eq_mul]
    exact Finset.sum_congr rfl fun i _ => mul_comm _ _
  have hUd : U.natDegree ≤ p := natDegree_sum_le_of_forall_le _ _ fun i _ => (natDegree_C_mul_le _ _).trans (hq i).1
  have hv : K.setup.value K.state = fun x => U.eval x := funext hU
  have hd1 : deriv (fun x => U.eval x) = fun x => (derivative U).eval x := funext fun x => U.deriv
  have hd2 : iteratedDeriv 2 (fun x => U.eval x) = fun x => (derivative (derivative U)).eval x := by
    rw [iteratedDeriv_succ, iteratedDeriv_one, hd1]
    funext x
    exact (derivative U).deriv
  let F : ℝ[X] := C a * U - C b * derivative U
  have hF' : ∀ x, dgFluxAt ph K x = F.eval x := by
    intro x
    rw [hF, hv, hd1]
    simp [F]
  have hFd : F.natDegree ≤ p :=
    (natDegree_sub_le _ _).trans (max_le ((natDegree_C_mul_le _ _).trans hUd)
      ((natDegree_C_mul_le _ _).trans ((natDegree_derivative_le U).trans (by omega))))
  have hdFd : (derivative F).natDegree ≤ p := (natDegree_derivative_le F).trans (by omega)
  obtain ⟨e, he, _⟩ := exists_coeff hc h (derivative F) hdFd
  have hz : (fun i => r i + e i) = 0 := by
    refine residual_unique hc h _ fun φ hφ => ?_
    have e1 : ∀ x, φ.eval x • field K.setup (fun i => r i + e i) x =
        φ.eval x • field K.setup r x + φ.eval x * (derivative F).eval x := by
      intro x
      rw [field_eq hc h, field_eq hc h, he]
      simp only [smul_eq_mul, mul_add, Finset.sum_add_distrib]
      congr 2
      exact Finset.sum_congr rfl fun i _ => mul_comm _ _
    have e2 := integrate_derivative hc h hl (φ * F) (.inl (natDegree_mul_le.trans (by omega)))
    have e3 := hw φ hφ
    simp only [hF', smul_eq_mul, mul_zero, add_zero, sub_zero] at e3
    simp only [derivative_mul, eval_add, eval_mul] at e2
    simp only [e1]
    simp only [Integrator.integrate_eq, smul_eq_mul, mul_add, Finset.sum_add_distrib] at e2 e3 ⊢
    linarith
  have hre : ∀ i, r i = -e i := fun i => by have := congrFun hz i; simp only [Pi.zero_apply] at this; linarith
  rw [hv, hd1, hd2, field_eq hc h]
  have h3 := he x
  simp only [F, derivative_sub, derivative_mul, derivative_C, zero_mul, zero_add, eval_sub, eval_mul, eval_C] at h3
  simp only [hre, smul_eq_mul, mul_neg, Finset.sum_neg_distrib]
  have h4 : ∑ i, K.setup.basisValues x i * e i = ∑ i, e i * K.setup.basisValues x i :=
    Finset.sum_congr rfl fun i _ => mul_comm _ _
  rw [h4, ← h3]
  ring

/-! ### Concrete cases -/

/-- Two elements on the interval from 0 to 2. -/
def pair : Fin 2 → Coordinate := ![.linear 0 1, .linear 1 2]

theorem pair_pos (i : Fin 2) : (pair i).xLeft < (pair i).xRight := by
  fin_cases i <;> simp [pair, Coordinate.xLeft, Coordinate.xRight]

theorem pair_length (i : Fin 2) : (pair i).xRight - (pair i).xLeft = 1 := by
  fin_cases i <;> norm_num [pair, Coordinate.xLeft, Coordinate.xRight]

/-- Advection to the right. -/
def shift : Physics ℝ := ⟨id, fun _ _ _ => 0, fun _ => 0, true, fun l _ => l⟩

/-- A wave that enters the first element: on a periodic grid the mean of the first element grows
exactly as fast as that of the second one falls, with modal elements as with nodal ones. -/
example : ∃ (g g' : Grid 1 0 ℝ) (r r' : Fin 2 → Fin 2 → ℝ), SameGrid pair g g' ∧
    (∀ i, (g.cells i).setup.kind = .modal ∧ (g'.cells i).setup.kind = .uniform) ∧
    (∀ i, residual shift g i = some (r i) ∧ residual shift g' i = some (r' i)) ∧
    (pair 0).length • (setCoeff (g.cells 0).setup (r 0)).average = 1 ∧
    (pair 1).length • (setCoeff (g.cells 1).setup (r 1)).average = -1 ∧
    ∀ i, field (g.cells i).setup (r i) = field (g'.cells i).setup (r' i) := by
  choose m hm using fun i => (constructors (pair_pos i) gauss2_exact).2.2.1
  choose e he using fun i => (constructors (pair_pos i) gauss2_exact).1
  have bm : ∀ i, Built (pair i) (m i) := fun i => .modal _ gauss2_exact (hm i)
  have be : ∀ i, Built (pair i) (e i) := fun i => .uniform _ gauss2_exact (he i)
  choose a ha _ using fun i => exists_coeff (pair_pos i) (bm i) (C (i : ℕ) : ℝ[X]) (by simp)
  choose b hb _ using fun i => exists_coeff (pair_pos i) (be i) (C (i : ℕ) : ℝ[X]) (by simp)
  let g : Grid 1 0 ℝ := ⟨fun i => ⟨m i, setCoeff (m i) (a i), none⟩, none⟩
  let g' : Grid 1 0 ℝ := ⟨fun i => ⟨e i, setCoeff (e i) (b i), none⟩, none⟩
  have va : ∀ i x, (m i).value (setCoeff (m i) (a i)) x = (i : ℕ) := fun i x => by
    have := field_eq (pair_pos i) (bm i) (a i) x
    simp only [smul_eq_mul, mul_comm _ (a i _), ← ha, eval_C] at this
    exact this
  have vb : ∀ i x, (e i).value (setCoeff (e i) (b i)) x = (i : ℕ) := fun i x => by
    have := field_eq (pair_pos i) (be i) (b i) x
    simp only [smul_eq_mul, mul_comm _ (b i _), ← hb, eval_C] at this
    exact this
  have hs : SameGrid pair g g' := ⟨fun i => ⟨bm i, be i, .coeff _ rfl, .coeff _ rfl,
    funext fun x => (va i x).trans (vb i x).symm, rfl⟩, fun i =>
    ((modal_sane (pair_pos i) (hm i)).2.2.2.1).trans (lagrange_sane (by simp) (pair_pos i) (he i)).2.2.2.2.1.symm, rfl⟩
  choose r hr _ using fun i => weak_form (pair_pos i) shift (g.cells i) (bm i) (.coeff _ rfl) (faceData shift g i)
  choose r' hr' _ using fun i => weak_form (pair_pos i) shift (g'.cells i) (be i) (.coeff _ rfl) (faceData shift g' i)
  have hbd : ∀ i, boundaryDerivatives (m i) (setCoeff (m i) (a i)) 0 false = (i : ℕ) := fun i => by
    rw [((value_derivatives (pair_pos i) (bm i) (.coeff (a i) rfl) 0).2 0).2.2.2.1, iteratedDeriv_zero, va]
  have hf0 : leftFace shift g 0 = (1, 0) := by
    have h1 := hbd (Fin.last _)
    simp only [leftFace, if_true, g, interface, shift, Cell.extra] at h1 ⊢
    rw [h1]
    simp
  have hf1 : leftFace shift g 1 = (0, 0) := by
    have h1 := hbd (1 - 1)
    simp only [leftFace, one_ne_zero, if_false, g, interface, shift, Cell.extra] at h1 ⊢
    rw [h1]
    simp
  refine ⟨g, g', r, r', hs, fun i => ⟨(modal_sane (pair_pos i) (hm i)).2.1,
    (lagrange_sane (by simp) (pair_pos i) (he i)).2.2.1⟩, fun i => ⟨hr i, hr' i⟩, ?_, ?_, fun i =>
    scheme_independent pair_pos shift hs i (hr i) (hr' i)⟩
  · rw [cell_balance (pair_pos 0) shift (g.cells 0) (bm 0) (.coeff _ rfl) _ (hr 0)]
    have h1 : rightFace shift g 0 = leftFace shift g (0 + 1) := by
      rw [rightFace, if_neg (by simp [Fin.ext_iff])]
    change rightFace shift g 0 = leftFace shift g 1 at h1
    simp only [faceData, h1, hf0, hf1]
    norm_num
  · rw [cell_balance (pair_pos 1) shift (g.cells 1) (bm 1) (.coeff _ rfl) _ (hr 1)]
    have h1 : rightFace shift g 1 = leftFace shift g 0 := by
      rw [rightFace, if_pos (by simp [Fin.ext_iff])]
    simp only [faceData, h1, hf0, hf1]
    norm_num

end MiniCFD.PyDG
