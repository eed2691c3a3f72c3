import Verif.Model.PyDissipation
import Verif.Model.PyEnergy
import Verif.Props.PyFRDG

/-! # C111: the dissipation matrices are the diffusive part of the flux reconstruction residual -/

namespace MiniCFD.PyDissipation
open MiniCFD.PyQuad MiniCFD.PyExpansion MiniCFD.PyDG MiniCFD.PyFR Polynomial

variable {p n : ℕ} {c : Coordinate} {V : Type*} [NormedAddCommGroup V] [NormedSpace ℝ V]

/-- Derivatives at an end are the combination of those of the basis. -/
theorem boundary_sum (hc : c.xLeft < c.xRight) {s : Setup p} (h : Built c s) (st : State p V) (k : ℕ) (left : Bool) :
    boundaryDerivatives s st k left = ∑ l, boundaryBasisDerivatives s k left l • st.coeff l := by
  unfold boundaryDerivatives
  cases hk : s.kind <;> try rfl
  simp only [boundaryBasisDerivatives, hk, nodeDerivatives]
  by_cases h0 : k = 0
  · subst h0
    have hm : s.kind ≠ .modal := by simp [hk]
    have e : ∀ j l, nodeBasisDerivatives s j 0 l = if l = j then 1 else 0 := fun j l => by
      rw [(cached_basis_derivatives hc h l 0).1 j, iteratedDeriv_zero, (basis_values hc h l).2.1 hm]
    simp [e]
  · simp [h0]

/-- Beyond the degree all derivatives at an end vanish. -/
theorem boundary_high (hc : c.xLeft < c.xRight) {s : Setup p} (h : Built c s) (k : ℕ) (hk : p < k) (left : Bool)
    (l : Fin (p + 1)) : boundaryBasisDerivatives s k left l = 0 := by
  obtain ⟨_, hl, hr⟩ := cached_basis_derivatives hc h l k
  cases left
  · rw [hr, (basis_derivatives hc h l _).2.2 k, basisDerivatives_high s _ hk]
  · rw [hl, (basis_derivatives hc h l _).2.2 k, basisDerivatives_high s _ hk]

/-- The slopes at an end interpolate the slopes at the nodes. -/
theorem slope_interpolated (hc : c.xLeft < c.xRight) {s : Setup p} (h : Built c s) (hk : s.kind ≠ .modal) (left : Bool)
    (j : Fin (p + 1)) :
    ∑ l, boundaryBasisDerivatives s 0 left l * nodeBasisDerivatives s l 1 j = boundaryBasisDerivatives s 1 left j := by
  obtain ⟨q, hq, hv, hg⟩ := basis_poly hc h j
  have hd : (derivative q).natDegree ≤ p := (natDegree_derivative_le q).trans (by omega)
  have e1 : ∀ x, iteratedDeriv 1 (fun x => s.basisValues x j) x = (derivative q).eval x := fun x => by
    rw [iteratedDeriv_one, ((basis_derivatives hc h j x).1).deriv, hg]
  have hn : ∀ l, nodeBasisDerivatives s l 1 j = (derivative q).eval (s.points l) := fun l => by
    rw [(cached_basis_derivatives hc h j 1).1 l, e1]
  have h0 : ∀ l, boundaryBasisDerivatives s 0 left l = s.basisValues (if left then c.xLeft else c.xRight) l := fun l => by
    obtain ⟨_, hl, hr⟩ := cached_basis_derivatives hc h l 0
    cases left
    · rw [hr, iteratedDeriv_zero]; rfl
    · rw [hl, iteratedDeriv_zero]; rfl
  have h1 : boundaryBasisDerivatives s 1 left j = (derivative q).eval (if left then c.xLeft else c.xRight) := by
    obtain ⟨_, hl, hr⟩ := cached_basis_derivatives hc h j 1
    cases left
    · rw [hr, e1]; rfl
    · rw [hl, e1]; rfl
  rw [h1, interpolate hc h hk _ hd]
  exact Finset.sum_congr rfl fun l _ => by rw [h0, hn, mul_comm]

/-- An equation with the constant coefficient `nu` of diffusion, and the same without. -/
structure Diffuses (ph ph0 : Physics V) (nu : ℝ) : Prop where
  diffusive : ∀ u du extra, ph.diffusive u du extra = (nu + extra) • du
  coefficient : ∀ u, ph.coefficient u = nu
  inviscid : ph.inviscid = true → nu = 0
  convective : ph0.convective = ph.convective
  upwind : ph0.upwind = ph.upwind
  coefficient0 : ∀ u, ph0.coefficient u = 0
  inviscid0 : ph0.inviscid = true

theorem dgFlux_diff {ph ph0 : Physics V} {nu : ℝ} (hd : Diffuses ph ph0 nu) (K : Cell p V) (hK : K.viscosity = none)
    (x : ℝ) (u du : V) : dgFlux ph K x u du = dgFlux ph0 K x u du - nu • du := by
  unfold dgFlux
  rw [hK, hd.inviscid0, hd.convective, hd.diffusive]
  cases hi : ph.inviscid
  · simp [Cell.extra, hK]
  · simp [hd.inviscid hi]

/-- The slope at the interface of two elements. -/
noncomputable def faceSlope (l r : Cell p V) : V :=
  interfaceGradient l.setup.coordinate.length r.setup.coordinate.length
    (boundaryDerivatives r.setup r.state 0 true - boundaryDerivatives l.setup l.state 0 false)
    ((2 : ℝ)⁻¹ • (boundaryDerivatives l.setup l.state 1 false + boundaryDerivatives r.setup r.state 1 true))
    (boundaryDerivatives r.setup r.state 2 true - boundaryDerivatives l.setup l.state 2 false)

theorem interface_diff {ph ph0 : Physics V} {nu : ℝ} (hd : Diffuses ph ph0 nu) {cl cr : Coordinate} {l r : Cell p V}
    (hcl : cl.xLeft < cl.xRight) (hcr : cr.xLeft < cr.xRight) (hl : Built cl l.setup) (hr : Built cr r.setup)
    (vl : l.viscosity = none) (vr : r.viscosity = none) :
    (interface ph l r).1 = (interface ph0 l r).1 - nu • faceSlope l r := by
  have hz : ∀ k, p < k → boundaryDerivatives l.setup l.state k false = 0 ∧ boundaryDerivatives r.setup r.state k true = 0 := by
    intro k hk
    rw [boundary_sum hcl hl, boundary_sum hcr hr]
    simp only [boundary_high hcl hl k hk, boundary_high hcr hr k hk, zero_smul, Finset.sum_const_zero, and_self]
  have h0 : (interface ph0 l r).1 = ph.upwind (boundaryDerivatives l.setup l.state 0 false)
      (boundaryDerivatives r.setup r.state 0 true) := by
    unfold interface
    simp [Cell.extra, vl, vr, hd.coefficient0, hd.upwind]
  rw [h0]
  unfold interface
  simp only [Cell.extra, vl, vr, hd.coefficient, min_self, zero_add, hd.diffusive, add_zero]
  by_cases hnu : nu = 0
  · simp [hnu]
  · rw [if_neg hnu]
    simp only [faceSlope]
    congr 3
    · rw [ite_eq_left_iff.2, ite_eq_left_iff.2]
      · intro h; exact (hz 1 (by omega)).2.symm
      · intro h; exact (hz 1 (by omega)).1.symm
    · rw [ite_eq_left_iff.2, ite_eq_left_iff.2]
      · intro h; exact (hz 2 (by omega)).1.symm
      · intro h; exact (hz 2 (by omega)).2.symm

/-- What the left neighbour adds to the slope at the left face, and the element itself. -/
theorem faceSlope_eq {cl cr : Coordinate} {l r : Cell p V} (hcl : cl.xLeft < cl.xRight) (hcr : cr.xLeft < cr.xRight)
    (hl : Built cl l.setup) (hr : Built cr r.setup) :
    faceSlope l r =
      ∑ j, interfaceGradient l.setup.coordinate.length r.setup.coordinate.length (-boundaryBasisDerivatives l.setup 0 false)
        ((1 / 2 : ℝ) • boundaryBasisDerivatives l.setup 1 false) (-boundaryBasisDerivatives l.setup 2 false) j • l.state.coeff j +
      ∑ j, interfaceGradient l.setup.coordinate.length r.setup.coordinate.length (boundaryBasisDerivatives r.setup 0 true)
        ((1 / 2 : ℝ) • boundaryBasisDerivatives r.setup 1 true) (boundaryBasisDerivatives r.setup 2 true) j • r.state.coeff j := by
  unfold faceSlope interfaceGradient
  simp only [boundary_sum hcl hl, boundary_sum hcr hr, Pi.add_apply, Pi.smul_apply, Pi.neg_apply, smul_eq_mul, add_smul,
    Finset.sum_add_distrib, mul_smul, ← Finset.smul_sum, smul_neg, neg_smul, Finset.sum_neg_distrib, smul_sub, smul_add]
  rw [one_div]
  module

/-- The diffusive part of the residual of one element. -/
theorem cell_diff {ph ph0 : Physics V} {nu : ℝ} (hd : Diffuses ph ph0 nu) (hc : c.xLeft < c.xRight) {K : Cell p V}
    (h : Built c K.setup) (hk : K.setup.kind ≠ .modal) (hK : K.viscosity = none) (hr : Reached K.setup K.state)
    (g : Correction) (f f0 : FaceData V) (sl sr : V) (hfl : f.leftFlux = f0.leftFlux - nu • sl)
    (hfr : f.rightFlux = f0.rightFlux - nu • sr) (left right : Option (Setup p)) :
    ∃ r r0, PyFR.cellResidual ph (some g) K f = some r ∧ PyFR.cellResidual ph0 (some g) K f0 = some r0 ∧
      ∀ k, r k - r0 k = nu • (∑ l, ((matrices g K.setup left right).b k l - (matrices g K.setup left right).c k l) •
          K.state.coeff l + (correctionGradients g K.setup (K.setup.points k)).1 • sl +
          (correctionGradients g K.setup (K.setup.points k)).2 • sr) := by
  have form : ∀ (ph : Physics V) (f : FaceData V), PyFR.cellResidual ph (some g) K f = some fun i =>
      PyFR.interior ph K i - (correctionGradients g K.setup (K.setup.points i)).1 • (gaps ph K f.leftFlux f.rightFlux).1 -
        (correctionGradients g K.setup (K.setup.points i)).2 • (gaps ph K f.leftFlux f.rightFlux).2 := by
    intro ph f
    unfold PyFR.cellResidual
    cases hkk : K.setup.kind <;> first | rfl | exact absurd hkk hk
  refine ⟨_, _, form ph f, form ph0 f0, fun k => ?_⟩
  have hg1 : ∀ x, dgFluxAt ph K x = dgFluxAt ph0 K x - nu • taylorGradient K.setup.coordinate.xCenter K.state.taylor x :=
    fun x => dgFlux_diff hd K hK x _ _
  have hnf : ∀ j, nodeFlux ph K j = nodeFlux ph0 K j - nu • ∑ l, nodeBasisDerivatives K.setup j 1 l • K.state.coeff l :=
    fun j => by
      rw [nodeFlux, nodeFlux, dgFlux_diff hd K hK]
      rfl
  have hb : ∀ j, K.setup.basisGradients (K.setup.points k) j = nodeBasisDerivatives K.setup k 1 j := fun j => by
    rw [(cached_basis_derivatives hc h j 1).1 k, iteratedDeriv_one, ((basis_derivatives hc h j _).1).deriv]
  have hint : PyFR.interior ph K k = PyFR.interior ph0 K k + nu • ∑ l, (matrices g K.setup left right).b k l • K.state.coeff l := by
    rw [PyFR.interior_eq hc ph K h, PyFR.interior_eq hc ph0 K h]
    simp only [dgFluxGradient, hnf, hb, smul_sub, Finset.sum_sub_distrib, matrices, Finset.sum_smul, Finset.smul_sum,
      smul_smul]
    rw [Finset.sum_comm (γ := Fin (p + 1))]
    rw [neg_sub, sub_eq_add_neg, add_comm]
    congr 1
    refine Finset.sum_congr rfl fun l _ => Finset.sum_congr rfl fun j _ => ?_
    congr 1
    ring
  have hends : ∀ x, (left : Bool) → x = (if left then c.xLeft else c.xRight) →
      taylorGradient K.setup.coordinate.xCenter K.state.taylor x =
        ∑ l, boundaryBasisDerivatives K.setup 1 left l • K.state.coeff l := by
    intro x left hx
    rw [← boundary_sum hc h]
    obtain ⟨hdv, hbd⟩ := value_derivatives hc h hr x
    rw [← hdv.deriv, ← iteratedDeriv_one]
    cases left
    · rw [(hbd 1).2.2.2.1, hx]; rfl
    · rw [(hbd 1).2.2.1, hx]; rfl
  have hcm : ∑ l, (matrices g K.setup left right).c k l • K.state.coeff l =
      (correctionGradients g K.setup (K.setup.points k)).1 • ∑ l, boundaryBasisDerivatives K.setup 1 true l • K.state.coeff l +
      (correctionGradients g K.setup (K.setup.points k)).2 • ∑ l, boundaryBasisDerivatives K.setup 1 false l • K.state.coeff l := by
    rw [Finset.smul_sum, Finset.smul_sum, ← Finset.sum_add_distrib]
    refine Finset.sum_congr rfl fun l _ => ?_
    rw [smul_smul, smul_smul, ← add_smul, ← slope_interpolated hc h hk, ← slope_interpolated hc h hk, Finset.mul_sum,
      Finset.mul_sum, ← Finset.sum_add_distrib]
    congr 1
    simp only [matrices]
    exact Finset.sum_congr rfl fun j _ => by ring
  rw [gaps_eq hc ph K h hr, gaps_eq hc ph0 K h hr, hg1, hg1, hends c.xLeft true rfl, hends c.xRight false rfl, hfl, hfr,
    hint]
  simp only [sub_smul, Finset.sum_sub_distrib, hcm]
  module

/-- The faces of an element with and without diffusion. -/
theorem faces_diff {ph ph0 : Physics V} {nu : ℝ} (hd : Diffuses ph ph0 nu) {co : Fin (n + 2) → Coordinate}
    (hc : ∀ i, (co i).xLeft < (co i).xRight) (grid : Grid p n V) (hb : ∀ i, Built (co i) (grid.cells i).setup)
    (hv : ∀ i, (grid.cells i).viscosity = none) (i : Fin (n + 2)) :
    (leftFace ph grid i).1 = (leftFace ph0 grid i).1 - nu • (match leftOf grid i with
      | none => 0
      | some j => faceSlope (grid.cells j) (grid.cells i)) ∧
    (rightFace ph grid i).1 = (rightFace ph0 grid i).1 - nu • (match rightOf grid i with
      | none => 0
      | some j => faceSlope (grid.cells i) (grid.cells j)) := by
  have hi : ∀ j k, (interface ph (grid.cells j) (grid.cells k)).1 = (interface ph0 (grid.cells j) (grid.cells k)).1 -
      nu • faceSlope (grid.cells j) (grid.cells k) := fun j k =>
    interface_diff hd (hc j) (hc k) (hb j) (hb k) (hv j) (hv k)
  have hl : ∀ i, (leftFace ph grid i).1 = (leftFace ph0 grid i).1 - nu • (match leftOf grid i with
      | none => 0
      | some j => faceSlope (grid.cells j) (grid.cells i)) := by
    intro i
    unfold leftFace leftOf
    by_cases h0 : i = 0
    · subst h0
      cases grid.boundary with
      | none => simp [hi]
      | some b => simp [hd.upwind]
    · simp [h0, hi]
  refine ⟨hl i, ?_⟩
  unfold rightFace rightOf
  by_cases h0 : i = Fin.last _
  · subst h0
    cases hbd : grid.boundary with
    | none => simp [hl, leftOf, hbd]
    | some b => simp [hd.upwind]
  · have h1 : i + 1 ≠ 0 := by
      intro e
      apply h0
      have := congrArg Fin.val e
      rw [Fin.val_add_one, if_neg h0] at this
      simp at this
    simp [h0, hl, leftOf, h1]

/-- What the matrices are for: on any grid, for any state, the residual with diffusion minus the residual without is
`nu` times the matrices applied to the coefficients of the element and of its neighbours. -/
theorem diffusive_part {ph ph0 : Physics V} {nu : ℝ} (hd : Diffuses ph ph0 nu) {co : Fin (n + 2) → Coordinate}
    (hc : ∀ i, (co i).xLeft < (co i).xRight) (grid : Grid p n V) (hb : ∀ i, Built (co i) (grid.cells i).setup)
    (hk : ∀ i, (grid.cells i).setup.kind ≠ .modal) (hr : ∀ i, Reached (grid.cells i).setup (grid.cells i).state)
    (hv : ∀ i, (grid.cells i).viscosity = none) (g : Correction) (i : Fin (n + 2)) :
    ∃ r r0, PyFR.residual ph (some g) grid i = some r ∧ PyFR.residual ph0 (some g) grid i = some r0 ∧ ∀ k, r k - r0 k = nu •
      (∑ l, (matricesOf g grid i).own k l • (grid.cells i).state.coeff l +
        (match leftOf grid i with
          | none => 0
          | some j => ∑ l, (matricesOf g grid i).e k l • (grid.cells j).state.coeff l) +
        (match rightOf grid i with
          | none => 0
          | some j => ∑ l, (matricesOf g grid i).f k l • (grid.cells j).state.coeff l)) := by
  obtain ⟨hl, hr'⟩ := faces_diff hd hc grid hb hv i
  obtain ⟨r, r0, e, e0, hdiff⟩ := cell_diff hd (hc i) (hb i) (hk i) (hv i) (hr i) g (faceData ph grid i)
    (faceData ph0 grid i) _ _ hl hr' ((leftOf grid i).map fun j => (grid.cells j).setup)
    ((rightOf grid i).map fun j => (grid.cells j).setup)
  refine ⟨r, r0, e, e0, fun k => ?_⟩
  rw [hdiff]
  congr 1
  have ho : ∀ l, (matricesOf g grid i).own k l = (matricesOf g grid i).d k l +
      ((matricesOf g grid i).b k l - (matricesOf g grid i).c k l) := fun l => rfl
  simp only [ho, add_smul, Finset.sum_add_distrib]
  cases hL : leftOf grid i <;> cases hR : rightOf grid i <;>
    simp only [matricesOf, hL, hR, Option.map_none, Option.map_some, matrices, Pi.zero_apply, mul_zero, zero_add, add_zero,
      zero_smul, smul_zero, Finset.sum_const_zero, faceSlope_eq (hc _) (hc _) (hb _) (hb _), add_smul, mul_smul,
      Finset.sum_add_distrib, ← Finset.smul_sum, smul_add]
  all_goals abel

/-- The equation of advection and diffusion against the one of advection only. -/
theorem linear_diffuses (a b : ℝ) : Diffuses (PyEnergy.physics (PyScalar.linearSolver a b))
    (PyEnergy.physics (PyScalar.linearSolver a 0)) b where
  diffusive _ _ _ := rfl
  coefficient _ := rfl
  inviscid h := by
    have h' : (PyScalar.linearSolver a b).eq.coeff 0 = 0 := by simpa [PyEnergy.physics] using h
    exact h'
  convective := rfl
  upwind := rfl
  coefficient0 _ := rfl
  inviscid0 := by simp [PyEnergy.physics]; rfl

/-- A grid that meets all hypotheses: two periodic elements with uniform nodes, any values. -/
example (a b : ℝ) (u : Fin 2 → Fin 2 → ℝ) (g : Correction) : ∃ grid : Grid 1 0 ℝ, (∀ i, (grid.cells i).state.coeff = u i) ∧
    ∀ i, ∃ r r0, PyFR.residual (PyEnergy.physics (PyScalar.linearSolver a b)) (some g) grid i = some r ∧
      PyFR.residual (PyEnergy.physics (PyScalar.linearSolver a 0)) (some g) grid i = some r0 ∧ ∀ k, r k - r0 k = b *
      (∑ l, (matricesOf g grid i).own k l * u i l + ∑ l, (matricesOf g grid i).e k l * u (1 - i) l +
        ∑ l, (matricesOf g grid i).f k l * u (1 - i) l) := by
  choose m hm using fun i => (constructors (pair_pos i) gauss2_exact).1
  have bm : ∀ i, Built (pair i) (m i) := fun i => .uniform _ gauss2_exact (hm i)
  have hk : ∀ i, (m i).kind ≠ .modal := fun i => by rw [(lagrange_sane (by simp) (pair_pos i) (hm i)).2.2.1]; simp
  refine ⟨⟨fun i => ⟨m i, setCoeff (m i) (u i), none⟩, none⟩, fun i => rfl, fun i => ?_⟩
  obtain ⟨r, r0, h1, h2, h3⟩ := diffusive_part (linear_diffuses a b) pair_pos
    (⟨fun i => ⟨m i, setCoeff (m i) (u i), none⟩, none⟩ : Grid 1 0 ℝ) bm hk (fun i => .coeff _ rfl) (fun _ => rfl) g i
  refine ⟨r, r0, h1, h2, fun k => ?_⟩
  rw [h3]
  fin_cases i <;> rfl

end MiniCFD.PyDissipation
