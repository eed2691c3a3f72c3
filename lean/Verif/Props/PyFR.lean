import Verif.Lemmas.PyFR
import Verif.Spec.PyFR

/-! # C98: the flux reconstruction schemes of the Python code -/

namespace MiniCFD.PyFR
open MiniCFD.PyQuad MiniCFD.PyExpansion MiniCFD.PyDG Polynomial
open MiniCFD.Spec.Gauss (ExactTo)
open MiniCFD.Spec.PyPoly (IsPair Orthogonal)
open MiniCFD.Spec.PyFR (PolyMap Interpolates)

variable {p : ℕ} {c : Coordinate} {V : Type*} [NormedAddCommGroup V] [NormedSpace ℝ V]

/-! ### Interpolation -/

theorem polyMap_comb {d : ℕ} {ι : Type*} [Fintype ι] (q : ι → ℝ[X]) (hq : ∀ k, (q k).natDegree ≤ d) (v : ι → V) :
    PolyMap d fun x => ∑ k, (q k).eval x • v k := by
  refine ⟨fun l => ∑ k, (q k).coeff l • v k, fun x => ?_⟩
  simp only [Finset.smul_sum, smul_smul]
  rw [Finset.sum_comm]
  refine Finset.sum_congr rfl fun k _ => ?_
  rw [← Finset.sum_smul, eval_eq_sum_range' (Nat.lt_succ_of_le (hq k)), Finset.sum_range]
  simp only [mul_comm]

theorem polyMap_cases {d : ℕ} {F : ℝ → V} (h : PolyMap d F) :
    ∃ (q : Fin (d + 1) → ℝ[X]) (v : Fin (d + 1) → V), (∀ k, (q k).natDegree ≤ d) ∧ ∀ x, F x = ∑ k, (q k).eval x • v k := by
  obtain ⟨a, ha⟩ := h
  exact ⟨fun k => X ^ (k : ℕ), a, fun k => (natDegree_X_pow_le _).trans (by omega), fun x => by simp [ha]⟩

/-- The interpolant at the nodes of an element. -/
theorem interpolates_unique (hc : c.xLeft < c.xRight) {s : Setup p} (h : Built c s) (hk : s.kind ≠ .modal)
    {F I : ℝ → V} (hI : Interpolates p s.points F I) (x : ℝ) :
    I x = ∑ j, s.basisValues x j • F (s.points j) := by
  obtain ⟨q, v, hq, hv⟩ := polyMap_cases hI.poly
  have := field_comb hc h hk q hq v x
  simp only [← hv, hI.values] at this
  rw [← this, field_eq hc h]

theorem interpolates_exists (hc : c.xLeft < c.xRight) {s : Setup p} (h : Built c s) (hk : s.kind ≠ .modal)
    (F : ℝ → V) : Interpolates p s.points F fun x => ∑ j, s.basisValues x j • F (s.points j) := by
  choose q hq hv _ using basis_poly hc h
  refine ⟨?_, fun j => ?_⟩
  · simp only [hv]; exact polyMap_comb q hq _
  · rw [Finset.sum_eq_single j]
    · rw [(basis_values hc h j).2.1 hk, if_pos rfl, one_smul]
    · intro i _ hi; rw [(basis_values hc h i).2.1 hk, if_neg hi, zero_smul]
    · simp

/-! ### The residual is the derivative of the reconstructed flux -/

/-- The flux whose derivative the scheme takes. -/
noncomputable def continuousFlux (c : Coordinate) (g : Correction) (F I : ℝ → V) (leftFlux rightFlux : V) (x : ℝ) : V :=
  I x + (g.value (c.globalToLocal x)).1 • (leftFlux - F c.xLeft) +
    (g.value (c.globalToLocal x)).2 • (rightFlux - F c.xRight)

/-- The residual of an element as a function on the whole element is minus the derivative of the
interpolated flux corrected at both ends; it is also what `get_fr_flux_gradient` returns at the nodes. -/
theorem reconstruction (hc : c.xLeft < c.xRight) (ph : Physics V) (K : Cell p V) (h : Built c K.setup)
    (hk : K.setup.kind ≠ .modal) (hr : Reached K.setup K.state) {g : Correction}
    (hg : IsPair (p + 1) g.value g.gradient) (f : FaceData V) {I : ℝ → V}
    (hI : Interpolates p K.setup.points (dgFluxAt ph K) I) :
    ∃ r, cellResidual ph (some g) K f = some r ∧
      (∀ x, HasDerivAt (continuousFlux c g (dgFluxAt ph K) I f.leftFlux f.rightFlux) (-field K.setup r x) x) ∧
      ∀ i, r i = -frFluxGradient ph g K (K.setup.points i) f.leftFlux f.rightFlux := by
  obtain ⟨P⟩ := pair_exists hc hg
  choose q hq hv hd using basis_poly hc h
  have hco := (h.sane hc).2
  set a := f.leftFlux - dgFluxAt ph K c.xLeft with ha
  set b := f.rightFlux - dgFluxAt ph K c.xRight with hb
  -- the derivative as a combination of polynomials
  let Q : Fin (p + 1) ⊕ Fin 2 → ℝ[X] := Sum.elim (fun j => derivative (q j)) ![derivative P.L, derivative P.R]
  let W : Fin (p + 1) ⊕ Fin 2 → V := Sum.elim (fun j => dgFluxAt ph K (K.setup.points j)) ![a, b]
  have hQ : ∀ k, (Q k).natDegree ≤ p := by
    rintro (j | j)
    · exact (natDegree_derivative_le _).trans (by have := hq j; simp only [Nat.sub_le_iff_le_add]; omega)
    · fin_cases j
      · exact (natDegree_derivative_le _).trans (by have := P.degL; omega)
      · exact (natDegree_derivative_le _).trans (by have := P.degR; omega)
  have hsum : ∀ x, ∑ k, (Q k).eval x • W k = dgFluxGradient ph K x + (derivative P.L).eval x • a +
      (derivative P.R).eval x • b := by
    intro x
    rw [Fintype.sum_sum_type, Fin.sum_univ_two]
    simp only [Q, W, Sum.elim_inl, Sum.elim_inr, Matrix.cons_val_zero, Matrix.cons_val_one, dgFluxGradient, hd,
      nodeFlux_eq hc ph K h hk hr]
    abel
  have hgrad : ∀ x, frFluxGradient ph g K x f.leftFlux f.rightFlux = ∑ k, (Q k).eval x • W k := by
    intro x
    rw [hsum]
    simp only [frFluxGradient, correctionGradients, hco]
    rw [(P.gradient x).1, (P.gradient x).2]
  let r : Fin (p + 1) → V := fun i => -frFluxGradient ph g K (K.setup.points i) f.leftFlux f.rightFlux
  have hr' : cellResidual ph (some g) K f = some r := by
    have e : ∀ i, interior ph K i - (correctionGradients g K.setup (K.setup.points i)).1 • (gaps ph K f.leftFlux f.rightFlux).1
        - (correctionGradients g K.setup (K.setup.points i)).2 • (gaps ph K f.leftFlux f.rightFlux).2 = r i := by
      intro i
      simp only [r, frFluxGradient, interior_eq hc ph K h, gaps_eq hc ph K h hr, hco]
      abel
    unfold cellResidual
    cases hkk : K.setup.kind with
    | modal => exact absurd hkk hk
    | uniform => exact congrArg some (funext e)
    | legendreRoots => exact congrArg some (funext e)
    | lobatto => exact congrArg some (funext e)
  refine ⟨r, hr', fun x => ?_, fun i => rfl⟩
  have hfield : -field K.setup r x = ∑ k, (Q k).eval x • W k := by
    rw [← field_comb hc h hk Q hQ W x, field_eq hc h, field_eq hc h, ← Finset.sum_neg_distrib]
    refine Finset.sum_congr rfl fun i _ => ?_
    simp only [r, hgrad, smul_neg, neg_neg]
  rw [hfield, hsum]
  have e : continuousFlux c g (dgFluxAt ph K) I f.leftFlux f.rightFlux = fun y =>
      (∑ j, (q j).eval y • dgFluxAt ph K (K.setup.points j)) + P.L.eval y • a + P.R.eval y • b := by
    funext y
    simp only [continuousFlux, P.value, interpolates_unique hc h hk hI, hv, ← ha, ← hb]
  rw [e]
  have e2 : dgFluxGradient ph K x = ∑ j, (derivative (q j)).eval x • dgFluxAt ph K (K.setup.points j) := by
    simp only [dgFluxGradient, hd, nodeFlux_eq hc ph K h hk hr]
  rw [e2]
  exact ((HasDerivAt.fun_sum fun j _ => ((q j).hasDerivAt x).smul_const _).add ((P.L.hasDerivAt x).smul_const a)).add
    ((P.R.hasDerivAt x).smul_const b)

/-- `get_fr_flux` has the common flux of the two neighbours at every face. -/
theorem frFlux_ends (hc : c.xLeft < c.xRight) (ph : Physics V) (K : Cell p V) (h : Built c K.setup)
    {g : Correction} (hg : IsPair (p + 1) g.value g.gradient) (fl fr : V) :
    frFlux ph g K c.xLeft fl fr = fl ∧ frFlux ph g K c.xRight fl fr = fr := by
  obtain ⟨P⟩ := pair_exists hc hg
  simp only [frFlux, (h.sane hc).2, P.value, P.ll, P.lr, P.rl, P.rr]
  constructor
  · simp
  · simp

/-! ### Balance -/

/-- What an element gains is what flows through its faces plus what the interpolation of the flux
misses at its ends. -/
theorem balance [CompleteSpace V] (hc : c.xLeft < c.xRight) (ph : Physics V) (K : Cell p V) (h : Built c K.setup)
    (hk : K.setup.kind ≠ .modal) (hr : Reached K.setup K.state) {g : Correction}
    (hg : IsPair (p + 1) g.value g.gradient) (f : FaceData V) {I : ℝ → V}
    (hI : Interpolates p K.setup.points (dgFluxAt ph K) I) {r : Fin (p + 1) → V}
    (hres : cellResidual ph (some g) K f = some r) :
    ∫ x in c.xLeft..c.xRight, field K.setup r x = f.leftFlux - f.rightFlux +
      ((dgFluxAt ph K c.xRight - I c.xRight) - (dgFluxAt ph K c.xLeft - I c.xLeft)) := by
  obtain ⟨r', h', hd, _⟩ := reconstruction hc ph K h hk hr hg f hI
  rw [hres] at h'; cases h'
  obtain ⟨P⟩ := pair_exists hc hg
  have hcont : Continuous fun x => -field K.setup r x := (continuous_value _ _).neg
  have := intervalIntegral.integral_eq_sub_of_hasDerivAt (a := c.xLeft) (b := c.xRight)
    (fun x _ => hd x) (hcont.intervalIntegrable _ _)
  rw [intervalIntegral.integral_neg, neg_eq_iff_eq_neg] at this
  rw [this]
  simp only [continuousFlux, P.value, P.ll, P.lr, P.rl, P.rr, one_smul, zero_smul, add_zero]
  abel

/-- The ends of an element on Lobatto nodes are nodes. -/
theorem lobatto_ends (hc : c.xLeft < c.xRight) {s : Setup p} (h : Built c s) (hk : s.kind = .lobatto) :
    s.points 0 = c.xLeft ∧ s.points (Fin.last p) = c.xRight := by
  cases h with
  | uniform rule _ h => rw [(lagrange_sane (by simp) hc h).2.2.1] at hk; simp at hk
  | modal rule _ h => rw [(modal_sane hc h).2.1] at hk; simp at hk
  | legendreRoots rule _ h => rw [(lagrange_sane (by simp) hc h).2.2.1] at hk; simp at hk
  | lobatto h =>
    obtain ⟨rule, hr, h⟩ := lobatto_cases h
    obtain ⟨_, _, _, hco, hi, hn, _⟩ := lagrange_sane (by simp) hc h
    obtain ⟨h0, h1, _⟩ := lobatto_sound hr
    obtain ⟨_, _, e0, e1, _⟩ := coordinate_spec c hc
    rw [Setup.points, samplePoints, samplePoints, hn, hco, h0, h1]
    exact ⟨e0, e1⟩

/-- The elements whose flux is met by its interpolant at both ends. -/
def Met (ph : Physics V) (K : Cell p V) : Prop :=
  K.setup.kind = .lobatto ∨ (K.setup.kind ≠ .modal ∧ PolyMap p (dgFluxAt ph K))

theorem Met.nodal {ph : Physics V} {K : Cell p V} (h : Met ph K) : K.setup.kind ≠ .modal := by
  rcases h with h | h
  · simp [h]
  · exact h.1

theorem Met.ends (hc : c.xLeft < c.xRight) {ph : Physics V} {K : Cell p V} (hb : Built c K.setup) (h : Met ph K) :
    ∃ I, Interpolates p K.setup.points (dgFluxAt ph K) I ∧ I c.xLeft = dgFluxAt ph K c.xLeft ∧
      I c.xRight = dgFluxAt ph K c.xRight := by
  rcases h with h | ⟨h, hF⟩
  · have hI := interpolates_exists hc hb (by simp [h]) (dgFluxAt ph K)
    obtain ⟨e0, e1⟩ := lobatto_ends hc hb h
    have h0 := hI.values 0
    have h1 := hI.values (Fin.last p)
    rw [e0] at h0
    rw [e1] at h1
    exact ⟨_, hI, h0, h1⟩
  · exact ⟨_, ⟨hF, fun _ => rfl⟩, rfl, rfl⟩

/-- Such elements gain exactly what flows through their faces: on a periodic grid the integral of the
solution does not change. -/
theorem conservation_partial [CompleteSpace V] {n : ℕ} {co : Fin (n + 2) → Coordinate}
    (hc : ∀ i, (co i).xLeft < (co i).xRight) (ph : Physics V) (grid : Grid p n V)
    (hb : ∀ i, Built (co i) (grid.cells i).setup) (hm : ∀ i, Met ph (grid.cells i))
    (hr : ∀ i, Reached (grid.cells i).setup (grid.cells i).state) {g : Correction}
    (hg : IsPair (p + 1) g.value g.gradient) {r : Fin (n + 2) → Fin (p + 1) → V}
    (hres : ∀ i, residual ph (some g) grid i = some (r i)) :
    ∑ i, ∫ x in (co i).xLeft..(co i).xRight, field (grid.cells i).setup (r i) x =
      match grid.boundary with
      | none => 0
      | some _ => (leftFace ph grid 0).1 - (rightFace ph grid (Fin.last _)).1 := by
  have h1 : ∀ i, ∫ x in (co i).xLeft..(co i).xRight, field (grid.cells i).setup (r i) x =
      (leftFace ph grid i).1 - (rightFace ph grid i).1 := by
    intro i
    obtain ⟨I, hI, el, er⟩ := (hm i).ends (hc i) (hb i)
    rw [balance (hc i) ph (grid.cells i) (hb i) (hm i).nodal (hr i) hg _ hI (hres i), el, er]
    simp [faceData]
  simp only [h1]
  exact sum_faces ph grid

/-- A uniform state stays what it is. -/
theorem free_stream {n : ℕ} {co : Fin (n + 2) → Coordinate} (hc : ∀ i, (co i).xLeft < (co i).xRight)
    (ph : Physics V) (grid : Grid p n V) (hb : ∀ i, Built (co i) (grid.cells i).setup)
    (hk : ∀ i, (grid.cells i).setup.kind ≠ .modal)
    (hr : ∀ i, Reached (grid.cells i).setup (grid.cells i).state) {g : Correction}
    (hg : IsPair (p + 1) g.value g.gradient) (v : V)
    (hv : ∀ i x, (grid.cells i).setup.value (grid.cells i).state x = v) (hup : ph.upwind v v = ph.convective v)
    (hdiff : ∀ nu, ph.diffusive v 0 nu = 0) (hbd : grid.boundary = none ∨ grid.boundary = some (v, v))
    (i : Fin (n + 2)) : residual ph (some g) grid i = some 0 := by
  obtain ⟨hf, hF⟩ := uniform_faces hc ph grid hb hr v hv hup hdiff hbd i
  have hI : Interpolates p (grid.cells i).setup.points (dgFluxAt ph (grid.cells i)) fun _ => ph.convective v :=
    ⟨⟨fun k => if k = 0 then ph.convective v else 0, fun x => by simp [Fin.sum_univ_succ]⟩, fun j => (hF _).symm⟩
  obtain ⟨r, h', hd, _⟩ := reconstruction (hc i) ph (grid.cells i) (hb i) (hk i) (hr i) hg (faceData ph grid i) hI
  have h0 : ∀ x, field (grid.cells i).setup r x = 0 := by
    intro x
    have e : continuousFlux (co i) g (dgFluxAt ph (grid.cells i)) (fun _ => ph.convective v)
        (faceData ph grid i).leftFlux (faceData ph grid i).rightFlux = fun _ => ph.convective v := by
      funext y
      simp [continuousFlux, hf, hF]
    have := (hd x).unique (e ▸ hasDerivAt_const x (ph.convective v))
    simpa using this
  rw [residual, h']
  congr 1
  funext j
  have := value_at_points (hc i) (hb i) (hk i) (.coeff r rfl) j
  exact this.symm.trans (h0 _)

/-- Where the flux of the solution is a polynomial of the degree of the element and the faces carry its
values, the residual is exactly minus its derivative. -/
theorem consistent (hc : c.xLeft < c.xRight) (ph : Physics V) (K : Cell p V) (h : Built c K.setup)
    (hk : K.setup.kind ≠ .modal) (hr : Reached K.setup K.state) {g : Correction}
    (hg : IsPair (p + 1) g.value g.gradient) (hF : PolyMap p (dgFluxAt ph K)) {r : Fin (p + 1) → V} {jl jr : V}
    (hres : cellResidual ph (some g) K ⟨dgFluxAt ph K c.xLeft, dgFluxAt ph K c.xRight, jl, jr⟩ = some r) (x : ℝ) :
    HasDerivAt (dgFluxAt ph K) (-field K.setup r x) x := by
  obtain ⟨r', h', hd, _⟩ := reconstruction hc ph K h hk hr hg ⟨dgFluxAt ph K c.xLeft, dgFluxAt ph K c.xRight, jl, jr⟩
    (I := dgFluxAt ph K) ⟨hF, fun _ => rfl⟩
  rw [hres] at h'; cases h'
  have e : continuousFlux c g (dgFluxAt ph K) (dgFluxAt ph K) (dgFluxAt ph K c.xLeft) (dgFluxAt ph K c.xRight) =
      dgFluxAt ph K := by
    funext y
    simp only [continuousFlux, sub_self, smul_zero, add_zero]
  exact e ▸ hd x

/-! ### The corrections at hand -/

/-- Those of Vincent for degrees above zero, or with the ratio one; all those of Huynh. -/
theorem corrections {g : Correction} (hg : (∃ mu v, PyPoly.vincent (p + 1) mu = some v ∧ (1 ≤ p ∨ mu 0 = 1) ∧ g = .vincent v) ∨
      ∃ m, ∃ roots : PyPoly.Roots (p + 1), ∃ coeff, Spec.PyPoly.GaussLegendre roots.x roots.w ∧
        PyPoly.huynh (p + 1) m roots = some coeff ∧ g = .huynh (p + 1) coeff) :
    addCorrection p g = some g ∧ IsPair (p + 1) g.value g.gradient := by
  rcases hg with ⟨mu, v, hv, hp, rfl⟩ | ⟨m, roots, coeff, hr, hh, rfl⟩
  · refine ⟨?_, PyPoly.vincent_pair_partial hv (hp.imp_left (by omega))⟩
    obtain ⟨_, _, rfl⟩ := PyPoly.vincent_eq hv
    simp [addCorrection, Correction.degree]
  · exact ⟨by simp [addCorrection, Correction.degree], PyPoly.huynh_pair hr hh⟩

/-- Without correction function, as solver.py leaves it, nothing can be computed. -/
theorem unset (ph : Physics V) (K : Cell p V) (f : FaceData V) : cellResidual ph none K f = none := by
  unfold cellResidual
  cases K.setup.kind <;> rfl

/-- Of degree zero with the default correction of Vincent the solution never changes, whatever flows
through the faces. -/
theorem degree_zero_frozen (hc : c.xLeft < c.xRight) (ph : Physics V) (K : Cell 0 V) (h : Built c K.setup)
    (hk : K.setup.kind ≠ .modal) (f : FaceData V) {v : PyPoly.Vincent}
    (hv : PyPoly.vincent 1 PyPoly.muLobatto = some v) : cellResidual ph (some (.vincent v)) K f = some 0 := by
  obtain ⟨v', hv', hz⟩ := PyPoly.vincent_default_dead
  rw [hv] at hv'; cases hv'
  have hi : ∀ i, interior ph K i = 0 := by
    intro i
    rw [interior_eq hc ph K h]
    simp [dgFluxGradient, Setup.basisGradients, taylorGradients]
  have e : (fun i => interior ph K i - (correctionGradients (.vincent v) K.setup (K.setup.points i)).1 •
        (gaps ph K f.leftFlux f.rightFlux).1 -
      (correctionGradients (.vincent v) K.setup (K.setup.points i)).2 • (gaps ph K f.leftFlux f.rightFlux).2) = 0 := by
    funext i
    simp [hi, correctionGradients, Correction.gradient, hz]
  unfold cellResidual
  cases hkk : K.setup.kind with
  | modal => exact absurd hkk hk
  | uniform => exact congrArg some e
  | legendreRoots => exact congrArg some e
  | lobatto => exact congrArg some e

/-- The functions of `Radau` are those of Vincent with the ends exchanged. -/
theorem radau_eq {k : ℕ} {v : PyPoly.Vincent} (hv : PyPoly.vincent (k + 1) PyPoly.muGalerkin = some v) (x : ℝ) :
    (Correction.radau (k + 1)).gradient x = ((Correction.vincent v).gradient x).swap := by
  have h1 := PyPoly.radau_pair k
  have h2 := PyPoly.vincent_pair_partial hv (.inr rfl)
  obtain ⟨_, _, rfl⟩ := PyPoly.vincent_eq hv
  have hval : ∀ y, (PyPoly.radauValue (k + 1) y).1 =
      ((PyPoly.Vincent.mk (k + 1 - 1) (PyPoly.muGalerkin (k + 1 - 1)) (1 - PyPoly.muGalerkin (k + 1 - 1))).value y).2 := by
    intro y
    rw [PyPoly.radau_value]
    simp only [PyPoly.Vincent.value, Nat.add_sub_cancel, PyPoly.muGalerkin]
    cases k with
    | zero => rw [PyPoly.right_zero]; simp [Vincent.legendre]; ring
    | succ k => rw [PyPoly.right_succ]; ring
  have hval' : ∀ y, (PyPoly.radauValue (k + 1) y).2 =
      ((PyPoly.Vincent.mk (k + 1 - 1) (PyPoly.muGalerkin (k + 1 - 1)) (1 - PyPoly.muGalerkin (k + 1 - 1))).value y).1 := by
    intro y
    rw [h2.mirror, ← hval]
    exact h1.mirror y
  have d1 := h1.differentiates x
  have d2 := h2.differentiates x
  simp only [Prod.fst_swap, Prod.snd_swap, hval, hval'] at d1
  exact Prod.ext (d1.2.unique d2.2) (d1.1.unique d2.1)

/-- With `Radau` as correction function an element loses what flows in and gains what flows out. -/
theorem radau_reverses [CompleteSpace V] (hc : c.xLeft < c.xRight) (ph : Physics V) (K : Cell p V)
    (h : Built c K.setup) (hm : Met ph K) (hr : Reached K.setup K.state) (f : FaceData V) (hp : p ≤ 9) :
    ∃ r, cellResidual ph (some (.radau (p + 1))) K f = some r ∧
      ∫ x in c.xLeft..c.xRight, field K.setup r x =
        (2 : ℝ) • (dgFluxAt ph K c.xLeft - dgFluxAt ph K c.xRight) - (f.leftFlux - f.rightFlux) := by
  obtain ⟨v, hv⟩ : ∃ v, PyPoly.vincent (p + 1) PyPoly.muGalerkin = some v := by
    unfold PyPoly.vincent
    rw [if_pos (by omega)]
    exact ⟨_, rfl⟩
  have hg : IsPair (p + 1) (Correction.vincent v).value (Correction.vincent v).gradient :=
    PyPoly.vincent_pair_partial hv (.inr rfl)
  let f' : FaceData V := ⟨dgFluxAt ph K c.xLeft + (f.rightFlux - dgFluxAt ph K c.xRight),
    dgFluxAt ph K c.xRight + (f.leftFlux - dgFluxAt ph K c.xLeft), 0, 0⟩
  have e : cellResidual ph (some (.radau (p + 1))) K f = cellResidual ph (some (.vincent v)) K f' := by
    have e1 : ∀ i, interior ph K i - (correctionGradients (.radau (p + 1)) K.setup (K.setup.points i)).1 •
          (gaps ph K f.leftFlux f.rightFlux).1 -
        (correctionGradients (.radau (p + 1)) K.setup (K.setup.points i)).2 • (gaps ph K f.leftFlux f.rightFlux).2 =
        interior ph K i - (correctionGradients (.vincent v) K.setup (K.setup.points i)).1 •
          (gaps ph K f'.leftFlux f'.rightFlux).1 -
        (correctionGradients (.vincent v) K.setup (K.setup.points i)).2 • (gaps ph K f'.leftFlux f'.rightFlux).2 := by
      intro i
      simp only [correctionGradients, radau_eq hv, Prod.fst_swap, Prod.snd_swap, gaps_eq hc ph K h hr, f',
        add_sub_cancel_left]
      abel
    unfold cellResidual
    cases K.setup.kind with
    | modal => rfl
    | uniform => exact congrArg some (funext e1)
    | legendreRoots => exact congrArg some (funext e1)
    | lobatto => exact congrArg some (funext e1)
  obtain ⟨I, hI, el, er⟩ := hm.ends hc h
  obtain ⟨r, hres, _⟩ := reconstruction hc ph K h hm.nodal hr hg f' hI
  refine ⟨r, e.trans hres, ?_⟩
  rw [balance hc ph K h hm.nodal hr hg f' hI hres, el, er]
  simp only [f', two_smul]
  abel

/-! ### Not conservative in general -/

/-- The rule of Gauss with three points. -/
noncomputable def gauss3 : Rule 2 := ⟨![-√(3 / 5), 0, √(3 / 5)], ![5 / 9, 8 / 9, 5 / 9]⟩

theorem gauss3_exact : ExactTo gauss3.apply (2 * 2 + 1) := by
  refine Rule.exact_of_moments fun k hk => ?_
  have ha : √(3 / 5 : ℝ) ^ 2 = 3 / 5 := Real.sq_sqrt (by norm_num)
  have e : gauss3.apply (fun x => x ^ k) = 5 / 9 * (-√(3 / 5)) ^ k + 8 / 9 * 0 ^ k + 5 / 9 * √(3 / 5) ^ k :=
    Fin.sum_univ_three _
  rw [e]
  generalize √(3 / 5 : ℝ) = x at *
  simp only [Gauss.mom]
  interval_cases k <;> norm_num <;> grind

/-- Two elements on the interval from -1 to 3. -/
def wide : Fin 2 → Coordinate := ![.linear (-1) 1, .linear 1 3]

theorem wide_pos (i : Fin 2) : (wide i).xLeft < (wide i).xRight := by
  fin_cases i <;> norm_num [wide, Coordinate.xLeft, Coordinate.xRight]

/-- The equation of Burgers with any Riemann solver. -/
noncomputable def burgersWith (upwind : ℝ → ℝ → ℝ) : Physics ℝ := ⟨fun u => u ^ 2 / 2, fun _ _ _ => 0, fun _ => 0, true, upwind⟩

/-- On Legendre nodes the scheme of degree two does not conserve: whatever the Riemann solver and the
correction function, two elements of the periodic equation of Burgers, the first with `x + x²`, the
second with zero, gain `4/5` per unit of time. -/
theorem not_conservative (upwind : ℝ → ℝ → ℝ) {g : Correction} (hg : IsPair 3 g.value g.gradient) :
    ∃ grid : Grid 2 0 ℝ, grid.boundary = none ∧ (∀ i, (grid.cells i).setup.kind = .legendreRoots) ∧
      (∀ i, Built (wide i) (grid.cells i).setup) ∧ (∀ i, Reached (grid.cells i).setup (grid.cells i).state) ∧
      ∃ r : Fin 2 → Fin 3 → ℝ, (∀ i, residual (burgersWith upwind) (some g) grid i = some (r i)) ∧
        ∑ i, ∫ x in (wide i).xLeft..(wide i).xRight, field (grid.cells i).setup (r i) x = 4 / 5 := by
  choose s hs using fun i => (constructors (wide_pos i) gauss3_exact).2.1
  have hb : ∀ i, Built (wide i) (s i) := fun i => .legendreRoots _ gauss3_exact (hs i)
  have hk : ∀ i, (s i).kind = .legendreRoots := fun i => (lagrange_sane (by simp) (wide_pos i) (hs i)).2.2.1
  have hnode : ∀ j, (s 0).points j = gauss3.x j := by
    intro j
    obtain ⟨_, _, _, hco, _, hn, _⟩ := lagrange_sane (by simp) (wide_pos 0) (hs 0)
    rw [Setup.points, samplePoints, hn, hco, (wide 0).eq_linear.2.2.2.2.1]
    norm_num [wide, Coordinate.xLeft, Coordinate.xRight]
  let U : Fin 2 → ℝ[X] := ![X + X ^ 2, 0]
  have hU : ∀ i, (U i).natDegree ≤ 2 := by
    intro i
    fin_cases i
    · show (X + X ^ 2 : ℝ[X]).natDegree ≤ 2
      compute_degree
    · simp [U]
  choose a ha _ using fun i => exists_coeff (wide_pos i) (hb i) (U i) (hU i)
  let grid : Grid 2 0 ℝ := ⟨fun i => ⟨s i, setCoeff (s i) (a i), none⟩, none⟩
  have hval : ∀ i x, (s i).value (setCoeff (s i) (a i)) x = (U i).eval x := by
    intro i x
    have := field_eq (wide_pos i) (hb i) (a i) x
    simp only [smul_eq_mul, mul_comm _ (a i _), ← ha] at this
    exact this
  have hF : ∀ i x, dgFluxAt (burgersWith upwind) (grid.cells i) x = ((U i).eval x) ^ 2 / 2 := by
    intro i x
    simp only [dgFluxAt, dgFlux, burgersWith, grid, hval]
    simp
  have hm : ∀ i, (grid.cells i).setup.kind ≠ .modal := fun i => by
    show (s i).kind ≠ _
    simp [hk]
  choose r hr _ _ using fun i => reconstruction (wide_pos i) (burgersWith upwind) (grid.cells i) (hb i) (hm i)
    (.coeff _ rfl) hg (faceData (burgersWith upwind) grid i) (interpolates_exists (wide_pos i) (hb i) (hm i) _)
  refine ⟨grid, rfl, hk, hb, fun i => .coeff _ rfl, r, hr, ?_⟩
  -- the interpolant of the flux in the first element
  have hI0 : Interpolates 2 (grid.cells 0).setup.points (dgFluxAt (burgersWith upwind) (grid.cells 0))
      fun x => (8 / 5 * x ^ 2 + 6 / 5 * x) / 2 := by
    refine ⟨⟨![0, 3 / 5, 4 / 5], fun x => ?_⟩, fun j => ?_⟩
    · simp [Fin.sum_univ_three]; ring
    · rw [hF]
      show (8 / 5 * (s 0).points j ^ 2 + 6 / 5 * (s 0).points j) / 2 = (X + X ^ 2 : ℝ[X]).eval ((s 0).points j) ^ 2 / 2
      rw [hnode]
      have h3 : √(3 / 5 : ℝ) ^ 2 = 3 / 5 := Real.sq_sqrt (by norm_num)
      simp only [eval_add, eval_X, eval_pow]
      fin_cases j
      · show (8 / 5 * (-√(3 / 5)) ^ 2 + 6 / 5 * (-√(3 / 5))) / 2 = (-√(3 / 5) + (-√(3 / 5)) ^ 2) ^ 2 / 2
        generalize √(3 / 5 : ℝ) = x at *
        grind
      · show (8 / 5 * (0 : ℝ) ^ 2 + 6 / 5 * 0) / 2 = (0 + 0 ^ 2) ^ 2 / 2
        norm_num
      · show (8 / 5 * (√(3 / 5)) ^ 2 + 6 / 5 * (√(3 / 5))) / 2 = (√(3 / 5) + (√(3 / 5)) ^ 2) ^ 2 / 2
        generalize √(3 / 5 : ℝ) = x at *
        grind
  have hI1 : Interpolates 2 (grid.cells 1).setup.points (dgFluxAt (burgersWith upwind) (grid.cells 1)) fun _ => 0 :=
    ⟨⟨0, fun x => by simp⟩, fun j => by rw [hF]; simp [U]⟩
  have hsum := sum_faces (burgersWith upwind) grid
  rw [Fin.sum_univ_two] at hsum ⊢
  rw [balance (wide_pos 0) (burgersWith upwind) (grid.cells 0) (hb 0) (hm 0) (.coeff _ rfl) hg _ hI0 (hr 0),
    balance (wide_pos 1) (burgersWith upwind) (grid.cells 1) (hb 1) (hm 1) (.coeff _ rfl) hg _ hI1 (hr 1)]
  simp only [hF]
  have e0 : (wide 0).xLeft = -1 := rfl
  have e1 : (wide 0).xRight = 1 := rfl
  rw [e0, e1]
  simp only [U, Matrix.cons_val_zero, Matrix.cons_val_one, eval_add, eval_X, eval_pow, eval_zero]
  simp only [faceData]
  change (leftFace (burgersWith upwind) grid 0).1 - (rightFace (burgersWith upwind) grid 0).1 +
    ((leftFace (burgersWith upwind) grid 1).1 - (rightFace (burgersWith upwind) grid 1).1) = 0 at hsum
  linarith

/-! ### Example -/

/-- Advection with linear elements on Legendre nodes and the default correction function: the hypotheses
of `conservation_partial` are met. -/
example : ∃ (v : PyPoly.Vincent) (grid : Grid 1 0 ℝ) (r : Fin 2 → Fin 2 → ℝ),
    PyPoly.vincent 2 PyPoly.muLobatto = some v ∧ (∀ i, Met shift (grid.cells i)) ∧
    (∀ i, residual shift (some (.vincent v)) grid i = some (r i)) ∧
    (∫ x in (pair 0).xLeft..(pair 0).xRight, field (grid.cells 0).setup (r 0) x) = 1 ∧
    (∫ x in (pair 1).xLeft..(pair 1).xRight, field (grid.cells 1).setup (r 1) x) = -1 := by
  obtain ⟨v, hv⟩ : ∃ v, PyPoly.vincent 2 PyPoly.muLobatto = some v := ⟨_, if_pos (by omega)⟩
  have hg := (corrections (p := 1) (g := .vincent v) (.inl ⟨_, v, hv, .inl le_rfl, rfl⟩)).2
  choose m hm using fun i => (constructors (pair_pos i) gauss2_exact).2.1
  have bm : ∀ i, Built (pair i) (m i) := fun i => .legendreRoots _ gauss2_exact (hm i)
  have hk : ∀ i, (m i).kind = .legendreRoots := fun i => (lagrange_sane (by simp) (pair_pos i) (hm i)).2.2.1
  choose a ha _ using fun i => exists_coeff (pair_pos i) (bm i) (C (i : ℕ) : ℝ[X]) (by simp)
  let g : Grid 1 0 ℝ := ⟨fun i => ⟨m i, setCoeff (m i) (a i), none⟩, none⟩
  have va : ∀ i x, (m i).value (setCoeff (m i) (a i)) x = (i : ℕ) := fun i x => by
    have := field_eq (pair_pos i) (bm i) (a i) x
    simp only [smul_eq_mul, mul_comm _ (a i _), ← ha, eval_C] at this
    exact this
  have hF : ∀ i, dgFluxAt shift (g.cells i) = fun _ => ((i : ℕ) : ℝ) := by
    intro i
    funext x
    simp only [dgFluxAt, dgFlux, shift, g, va]
    simp
  have hI : ∀ i, PolyMap 1 (dgFluxAt shift (g.cells i)) := fun i => by
    rw [hF]
    exact ⟨![((i : ℕ) : ℝ), 0], fun x => by simp [Fin.sum_univ_two]⟩
  have hm' : ∀ i, (g.cells i).setup.kind ≠ .modal := fun i => by
    show (m i).kind ≠ _
    simp [hk]
  choose r hr _ _ using fun i => reconstruction (pair_pos i) shift (g.cells i) (bm i) (hm' i) (.coeff _ rfl) hg
    (faceData shift g i) (I := dgFluxAt shift (g.cells i)) ⟨hI i, fun _ => rfl⟩
  have hbd : ∀ i, boundaryDerivatives (m i) (setCoeff (m i) (a i)) 0 false = (i : ℕ) := fun i => by
    rw [((value_derivatives (pair_pos i) (bm i) (.coeff (a i) rfl) 0).2 0).2.2.2.1, iteratedDeriv_zero, va]
  have hf0 : leftFace shift g 0 = (1, 0) := by
    have h1 := hbd (Fin.last _)
    simp only [leftFace, if_true, g, interface, shift, Cell.extra] at h1 ⊢
    rw [h1]
    simp
  have hf1 : leftFace shift g 1 = (0, 0) := by
    have h1 := hbd (1 - 1)
    simp only [leftFace, one_ne_zero, if_false, g, interface, shift, Cell.extra] at h1 ⊢
    rw [h1]
    simp
  refine ⟨v, g, r, hv, fun i => .inr ⟨hm' i, hI i⟩, hr, ?_, ?_⟩
  · rw [balance (pair_pos 0) shift (g.cells 0) (bm 0) (hm' 0) (.coeff _ rfl) hg _ ⟨hI 0, fun _ => rfl⟩ (hr 0)]
    have h1 : rightFace shift g 0 = leftFace shift g (0 + 1) := by
      rw [rightFace, if_neg (by simp [Fin.ext_iff])]
    change rightFace shift g 0 = leftFace shift g 1 at h1
    simp only [faceData, h1, hf0, hf1]
    norm_num
  · rw [balance (pair_pos 1) shift (g.cells 1) (bm 1) (hm' 1) (.coeff _ rfl) hg _ ⟨hI 1, fun _ => rfl⟩ (hr 1)]
    have h1 : rightFace shift g 1 = leftFace shift g 0 := by
      rw [rightFace, if_pos (by simp [Fin.ext_iff])]
    simp only [faceData, h1, hf0, hf1]
    norm_num

end MiniCFD.PyFR
