import Verif.Lemmas.PyFRDG

/-! # C99: where flux reconstruction and the discontinuous Galerkin schemes of the Python code agree -/

namespace MiniCFD.PyFR
open MiniCFD.PyQuad MiniCFD.PyExpansion MiniCFD.PyDG Polynomial
open MiniCFD.Spec.Gauss (ExactTo)
open MiniCFD.Spec.PyPoly (IsPair Orthogonal GaussLegendre)
open MiniCFD.Spec.PyFR (PolyMap Interpolates)

variable {p : ℕ} {c : Coordinate} {V : Type*} [NormedAddCommGroup V] [NormedSpace ℝ V]

/-- The combinations of element and correction function for which this holds: a Gauss rule, a flux that
stays within the polynomials of the element and a correction function orthogonal to degree below `p`;
or Lobatto nodes, any flux and a correction function orthogonal to degree below `p - 1` and without
slope at the far end. -/
inductive Matched (ph : Physics V) (K : Cell p V) (g : Correction) : Prop where
  | gauss (nodal : K.setup.kind = .uniform ∨ K.setup.kind = .legendreRoots) (flux : PolyMap p (dgFluxAt ph K))
      (orthogonal : Orthogonal (fun x => (g.value x).2) p)
  | lobatto (nodal : K.setup.kind = .lobatto) (small : p ≤ 5) (orthogonal : Orthogonal (fun x => (g.value x).2) (p - 1))
      (slope : (g.gradient (-1)).2 = 0)

theorem Matched.met {ph : Physics V} {K : Cell p V} {g : Correction} (h : Matched ph K g) : Met ph K := by
  cases h with
  | gauss hk hF _ => exact .inr ⟨by rcases hk with hk | hk <;> simp [hk], hF⟩
  | lobatto hk _ _ _ => exact .inl hk

/-- Flux reconstruction satisfies the weak form of the discontinuous Galerkin scheme. -/
theorem weak_form (hc : c.xLeft < c.xRight) (ph : Physics V) (K : Cell p V) (h : Built c K.setup)
    (hr : Reached K.setup K.state) {g : Correction} (hg : IsPair (p + 1) g.value g.gradient) (hm : Matched ph K g)
    (f : FaceData V) {r : Fin (p + 1) → V} (hres : cellResidual ph (some g) K f = some r) (φ : ℝ[X])
    (hφ : φ.natDegree ≤ p) :
    K.setup.integrator.integrate (fun x => φ.eval x • field K.setup r x) =
      K.setup.integrator.integrate (fun x => (derivative φ).eval x • dgFluxAt ph K x) +
        φ.eval c.xLeft • f.leftFlux - φ.eval c.xRight • f.rightFlux := by
  have hk := hm.met.nodal
  obtain ⟨P⟩ := pair_exists hc hg
  have hlift : Lifts K.setup c P := by
    cases hm with
    | gauss hk hF ho => exact lifts_gauss hc h (by rcases hk with hk | hk <;> simp [hk]) hg P ho
    | lobatto hk h5 ho hs => exact lifts_lobatto hc h hk h5 hg P ho hs
  have hl5 : K.setup.kind = .lobatto → p ≤ 5 := by
    intro e
    cases hm with
    | gauss hk _ _ => rcases hk with hk | hk <;> simp [hk] at e
    | lobatto _ h5 _ _ => exact h5
  obtain ⟨I, hI, el, er⟩ := hm.met.ends hc h
  choose q hq hv _ using basis_poly hc h
  set F := dgFluxAt ph K with hFdef
  have hIx : ∀ x, I x = ∑ j, (q j).eval x • F (K.setup.points j) := by
    intro x
    rw [interpolates_unique hc h hk hI]
    simp only [hv]
  -- the flux and its interpolant are the same to the quadrature
  have hQ : K.setup.integrator.integrate (fun x => (derivative φ).eval x • F x) =
      K.setup.integrator.integrate (fun x => (derivative φ).eval x • I x) := by
    cases hm with
    | gauss hk' hF _ =>
      have : I = F := by
        funext x
        rw [interpolates_unique hc h hk hI, interpolates_unique hc h hk (F := F) (I := F) ⟨hF, fun _ => rfl⟩]
      rw [this]
    | lobatto hk' _ _ _ =>
      simp only [Integrator.integrate_eq, points_eq hc h (.inr hk'), hI.values]
  obtain ⟨r', h', hd, _⟩ := reconstruction hc ph K h hk hr hg f hI
  rw [hres] at h'; cases h'
  set a := f.leftFlux - F c.xLeft with ha
  set b := f.rightFlux - F c.xRight with hb
  have hfield : ∀ x, field K.setup r x = -((∑ j, (derivative (q j)).eval x • F (K.setup.points j)) +
      (derivative P.L).eval x • a + (derivative P.R).eval x • b) := by
    intro x
    have e : continuousFlux c g F I f.leftFlux f.rightFlux = fun y =>
        (∑ j, (q j).eval y • F (K.setup.points j)) + P.L.eval y • a + P.R.eval y • b := by
      funext y
      simp only [continuousFlux, P.value, hIx, ← ha, ← hb]
    have h1 := e ▸ hd x
    have h2 := ((HasDerivAt.fun_sum fun j (_ : j ∈ Finset.univ) => ((q j).hasDerivAt x).smul_const
      (F (K.setup.points j))).add ((P.L.hasDerivAt x).smul_const a)).add ((P.R.hasDerivAt x).smul_const b)
    rw [← h1.unique h2, neg_neg]
  have hparts : ∀ j, K.setup.integrator.integrate (fun x => φ.eval x * (derivative (q j)).eval x) =
      (φ.eval c.xRight * (q j).eval c.xRight - φ.eval c.xLeft * (q j).eval c.xLeft) -
        K.setup.integrator.integrate (fun x => (derivative φ).eval x * (q j).eval x) := by
    intro j
    have := integrate_derivative hc h hl5 (φ * q j) (.inl (natDegree_mul_le.trans (by have := hq j; omega)))
    rw [eval_mul, eval_mul] at this
    rw [← this]
    simp only [Integrator.integrate_eq, derivative_mul, eval_add, eval_mul, smul_eq_mul, mul_add, Finset.sum_add_distrib]
    ring
  have expand : K.setup.integrator.integrate (fun x => φ.eval x • field K.setup r x) =
      -((∑ j, K.setup.integrator.integrate (fun x => φ.eval x * (derivative (q j)).eval x) • F (K.setup.points j)) +
        K.setup.integrator.integrate (fun x => φ.eval x * (derivative P.L).eval x) • a +
        K.setup.integrator.integrate (fun x => φ.eval x * (derivative P.R).eval x) • b) := by
    simp only [Integrator.integrate_eq, hfield, smul_neg, Finset.sum_neg_distrib, smul_add, Finset.sum_add_distrib,
      Finset.sum_smul, Finset.smul_sum, smul_smul, smul_eq_mul]
    rw [Finset.sum_comm]
  have collect : ∑ j, K.setup.integrator.integrate (fun x => (derivative φ).eval x * (q j).eval x) •
      F (K.setup.points j) = K.setup.integrator.integrate (fun x => (derivative φ).eval x • I x) := by
    simp only [Integrator.integrate_eq, hIx, Finset.sum_smul, Finset.smul_sum, smul_smul, smul_eq_mul]
    rw [Finset.sum_comm]
  rw [expand, hlift.left φ hφ, hlift.right φ hφ, hQ]
  simp only [hparts, sub_smul, Finset.sum_sub_distrib, collect, mul_smul, ← Finset.smul_sum, ← hIx, el, er, ha, hb,
    smul_sub, neg_smul]
  abel

/-- In these cases flux reconstruction is the discontinuous Galerkin scheme on the same nodes, as long as
no interface has a jump to correct. -/
theorem equals_dg (hc : c.xLeft < c.xRight) (ph : Physics V) (K : Cell p V) (h : Built c K.setup)
    (hr : Reached K.setup K.state) {g : Correction} (hg : IsPair (p + 1) g.value g.gradient) (hm : Matched ph K g)
    (f : FaceData V) (hl : f.leftJump = 0) (hj : f.rightJump = 0) :
    ∃ r, cellResidual ph (some g) K f = some r ∧ PyDG.cellResidual ph K f = some r := by
  obtain ⟨I, hI, _⟩ := hm.met.ends hc h
  obtain ⟨r, hres, _⟩ := reconstruction hc ph K h hm.met.nodal hr hg f hI
  obtain ⟨r', hres', hw⟩ := PyDG.weak_form hc ph K h hr f
  refine ⟨r, hres, ?_⟩
  rw [hres']
  have key : r' - r = 0 := by
    refine residual_unique hc h _ fun φ hφ => ?_
    have h1 := weak_form hc ph K h hr hg hm f hres φ hφ
    have h2 := hw φ hφ
    rw [hl, hj, smul_zero, smul_zero, add_zero, sub_zero, ← h1] at h2
    have e : K.setup.integrator.integrate (fun x => φ.eval x • field K.setup (r' - r) x) =
        K.setup.integrator.integrate (fun x => φ.eval x • field K.setup r' x) -
          K.setup.integrator.integrate (fun x => φ.eval x • field K.setup r x) := by
      simp only [Integrator.integrate_eq, field_eq hc h, Pi.sub_apply, smul_sub, Finset.sum_sub_distrib]
    rw [e, h2, sub_self]
  rw [sub_eq_zero.1 key]

/-- Without diffusion no interface has a jump to correct. -/
theorem no_jump (ph : Physics V) {n : ℕ} (grid : Grid p n V) (hnu : ∀ i, (grid.cells i).viscosity = none)
    (hcoef : ∀ u, ph.coefficient u = 0) (i : Fin (n + 2)) :
    (faceData ph grid i).leftJump = 0 ∧ (faceData ph grid i).rightJump = 0 := by
  have hi : ∀ j k, (interface ph (grid.cells j) (grid.cells k)).2 = 0 := by
    intro j k
    unfold interface
    simp [Cell.extra, hnu, hcoef]
  have hl : ∀ j, (leftFace ph grid j).2 = 0 := by
    intro j
    unfold leftFace
    split_ifs
    · cases grid.boundary with
      | none => exact hi _ _
      | some b => simp
    · exact hi _ _
  refine ⟨hl i, ?_⟩
  show (rightFace ph grid i).2 = 0
  unfold rightFace
  split_ifs
  · cases grid.boundary with
    | none => exact hl _
    | some b => simp
  · exact hl _

/-- So on every grid, without diffusion. -/
theorem scheme_equals_dg {n : ℕ} {co : Fin (n + 2) → Coordinate} (hc : ∀ i, (co i).xLeft < (co i).xRight)
    (ph : Physics V) (grid : Grid p n V) (hb : ∀ i, Built (co i) (grid.cells i).setup)
    (hr : ∀ i, Reached (grid.cells i).setup (grid.cells i).state) {g : Correction}
    (hg : IsPair (p + 1) g.value g.gradient) (hm : ∀ i, Matched ph (grid.cells i) g)
    (hnu : ∀ i, (grid.cells i).viscosity = none) (hcoef : ∀ u, ph.coefficient u = 0) (i : Fin (n + 2)) :
    ∃ r, residual ph (some g) grid i = some r ∧ PyDG.residual ph grid i = some r :=
  equals_dg (hc i) ph (grid.cells i) (hb i) (hr i) hg (hm i) _ (no_jump ph grid hnu hcoef i).1
    (no_jump ph grid hnu hcoef i).2

/-! ### The correction functions that match -/

/-- For Gauss rules: the one of Vincent with the ratio `discontinuous_galerkin`, and the one of Huynh
with one lumping condition. -/
theorem matched_gauss {g : Correction} (hg : (∃ v, PyPoly.vincent (p + 1) PyPoly.muGalerkin = some v ∧ g = .vincent v) ∨
      ∃ roots : PyPoly.Roots (p + 1), ∃ coeff, GaussLegendre roots.x roots.w ∧
        PyPoly.huynh (p + 1) 1 roots = some coeff ∧ g = .huynh (p + 1) coeff) :
    IsPair (p + 1) g.value g.gradient ∧ Orthogonal (fun x => (g.value x).2) p := by
  rcases hg with ⟨v, hv, rfl⟩ | ⟨roots, coeff, hr, hh, rfl⟩
  · refine ⟨PyPoly.vincent_pair_partial hv (.inr rfl), ?_⟩
    have := (PyPoly.radau_orthogonal p).1
    have e : (fun x => ((Correction.vincent v).value x).2) = fun x => (PyPoly.radauValue (p + 1) x).1 := by
      obtain ⟨_, _, rfl⟩ := PyPoly.vincent_eq hv
      funext y
      rw [PyPoly.radau_value]
      simp only [Correction.value, PyPoly.Vincent.value, Nat.add_sub_cancel, PyPoly.muGalerkin]
      cases p with
      | zero => rw [PyPoly.right_zero]; simp [Vincent.legendre]; ring
      | succ k => rw [PyPoly.right_succ]; ring
    rw [e]
    exact this
  · refine ⟨PyPoly.huynh_pair hr hh, ?_⟩
    obtain ⟨_, _, _, _, ho, _⟩ := PyPoly.huynh_conditions hr hh
    exact ho

/-- For Lobatto nodes: the default of Vincent, and the one of Huynh with two lumping conditions. -/
theorem matched_lobatto (hp : 1 ≤ p) {g : Correction}
    (hg : (∃ v, PyPoly.vincent (p + 1) PyPoly.muLobatto = some v ∧ g = .vincent v) ∨
      ∃ roots : PyPoly.Roots (p + 1), ∃ coeff, GaussLegendre roots.x roots.w ∧
        PyPoly.huynh (p + 1) 2 roots = some coeff ∧ g = .huynh (p + 1) coeff) :
    IsPair (p + 1) g.value g.gradient ∧ Orthogonal (fun x => (g.value x).2) (p - 1) ∧ (g.gradient (-1)).2 = 0 := by
  rcases hg with ⟨v, hv, rfl⟩ | ⟨roots, coeff, hr, hh, rfl⟩
  · refine ⟨PyPoly.vincent_pair_partial hv (.inl (by omega)), ?_⟩
    obtain ⟨_, _, rfl⟩ := PyPoly.vincent_eq hv
    obtain ⟨k, rfl⟩ : ∃ k, p = k + 1 := ⟨p - 1, by omega⟩
    simp only [Nat.add_sub_cancel]
    constructor
    · intro q hq
      have hq1 : q.degree < (k + 1 : Nat) := lt_trans hq (by exact_mod_cast Nat.lt_succ_self k)
      have hz : Vincent.integral (C (1 / 2) * (Vincent.leg (k + 1) * q + C (1 - PyPoly.muLobatto (k + 1)) *
          (Vincent.leg k * q) + C (PyPoly.muLobatto (k + 1)) * (Vincent.leg (k + 2) * q))) = 0 := by
        rw [Vincent.integral_C_mul, Vincent.integral_add, Vincent.integral_add, Vincent.integral_C_mul,
          Vincent.integral_C_mul, Vincent.leg_orthogonal k q hq, Vincent.leg_orthogonal (k + 1) q hq1,
          Vincent.leg_orthogonal (k + 2) q (lt_trans hq1 (by exact_mod_cast Nat.lt_succ_self _))]
        ring
      rw [Vincent.integral] at hz
      rw [← hz]
      congr 1
      funext y
      simp only [Correction.value, PyPoly.Vincent.value, PyPoly.right_succ, eval_mul, eval_C, eval_add, Vincent.leg_eval]
      ring
    · simp only [Correction.gradient, PyPoly.Vincent.gradient, PyPoly.vincent_loop]
      rw [if_neg (by omega), Nat.add_sub_cancel]
      have hne : (2 * ((k : ℝ) + 1) + 1) ≠ 0 := by positivity
      cases k with
      | zero => simp [Vincent.dleg_neg, Vincent.dleg_one, Vincent.dleg_zero, PyPoly.muLobatto]; norm_num
      | succ k =>
        simp only [Vincent.dleg_neg, Vincent.dleg_one, PyPoly.muLobatto]
        push_cast at hne ⊢
        field_simp
        ring
  · have hpair := PyPoly.huynh_pair hr hh
    refine ⟨hpair, ?_⟩
    obtain ⟨q, _, hv, hl, ho, _⟩ := PyPoly.huynh_conditions hr hh
    rw [show p + 1 - 2 = p - 1 by omega] at ho
    refine ⟨ho, ?_⟩
    have h1 := (hpair.differentiates (-1)).2
    rw [show (fun x => (PyPoly.huynhValue coeff x).2) = fun x => q.eval x from funext hv] at h1
    rw [show ((Correction.huynh (p + 1) coeff).gradient (-1)).2 = _ from h1.unique (q.hasDerivAt (-1))]
    exact hl 1 (by omega)

/-- The flux of a linear equation without diffusion stays within the polynomials of the element. -/
theorem linear_flux (hc : c.xLeft < c.xRight) (ph : Physics V) (K : Cell p V) (h : Built c K.setup)
    (hr : Reached K.setup K.state) (A : V →ₗ[ℝ] V) (hA : ∀ u, ph.convective u = A u) (hinv : ph.inviscid = true)
    (hnu : K.viscosity = none) : PolyMap p (dgFluxAt ph K) := by
  choose q hq hv _ using basis_poly hc h
  have e : dgFluxAt ph K = fun x => ∑ j, (q j).eval x • A (K.state.coeff j) := by
    funext x
    simp only [dgFluxAt, dgFlux, hinv, hnu, Option.isSome_none, Bool.not_true, Bool.or_self, Bool.false_eq_true,
      if_false, hA, value_eq hc h hr, map_sum, map_smul, hv]
  rw [e]
  exact polyMap_comb q hq _

/-- On Lobatto nodes with the default correction function every equation without diffusion, on Legendre
or uniform nodes with the correction `discontinuous_galerkin` every linear one: both schemes compute the
same. -/
theorem same_as_dg {n : ℕ} {co : Fin (n + 2) → Coordinate} (hc : ∀ i, (co i).xLeft < (co i).xRight)
    (ph : Physics V) (grid : Grid p n V) (hb : ∀ i, Built (co i) (grid.cells i).setup)
    (hr : ∀ i, Reached (grid.cells i).setup (grid.cells i).state) (hnu : ∀ i, (grid.cells i).viscosity = none)
    (hinv : ph.inviscid = true) (hcoef : ∀ u, ph.coefficient u = 0) {v : PyPoly.Vincent}
    (hv : (PyPoly.vincent (p + 1) PyPoly.muLobatto = some v ∧ p ≤ 5 ∧ ∀ i, (grid.cells i).setup.kind = .lobatto) ∨
      (PyPoly.vincent (p + 1) PyPoly.muGalerkin = some v ∧ (∃ A : V →ₗ[ℝ] V, ∀ u, ph.convective u = A u) ∧
        ∀ i, (grid.cells i).setup.kind = .uniform ∨ (grid.cells i).setup.kind = .legendreRoots))
    (i : Fin (n + 2)) :
    ∃ r, residual ph (some (.vincent v)) grid i = some r ∧ PyDG.residual ph grid i = some r := by
  rcases hv with ⟨hv, h5, hk⟩ | ⟨hv, ⟨A, hA⟩, hk⟩
  · obtain ⟨hg, ho, hs⟩ := matched_lobatto (lobatto_pos (hc 0) (hb 0) (hk 0)) (g := .vincent v) (.inl ⟨v, hv, rfl⟩)
    exact scheme_equals_dg hc ph grid hb hr hg (fun i => .lobatto (hk i) h5 ho hs) hnu hcoef i
  · obtain ⟨hg, ho⟩ := matched_gauss (g := .vincent v) (.inl ⟨v, hv, rfl⟩)
    exact scheme_equals_dg hc ph grid hb hr hg
      (fun i => .gauss (hk i) (linear_flux (hc i) ph _ (hb i) (hr i) A hA hinv (hnu i)) ho) hnu hcoef i

/-- The equation of Burgers on Lobatto nodes: the state one of the second element enters the first. -/
example : ∃ (v : PyPoly.Vincent) (grid : Grid 1 0 ℝ) (r : Fin 2 → Fin 2 → ℝ),
    PyPoly.vincent 2 PyPoly.muLobatto = some v ∧
    (∀ i, (grid.cells i).setup.kind = .lobatto) ∧
    (∀ i, residual (burgersWith fun l _ => l ^ 2 / 2) (some (.vincent v)) grid i = some (r i) ∧
      PyDG.residual (burgersWith fun l _ => l ^ 2 / 2) grid i = some (r i)) ∧
    (pair 0).length • (setCoeff (grid.cells 0).setup (r 0)).average = 1 / 2 ∧
    (pair 1).length • (setCoeff (grid.cells 1).setup (r 1)).average = -1 / 2 := by
  obtain ⟨v, hv⟩ : ∃ v, PyPoly.vincent 2 PyPoly.muLobatto = some v := ⟨_, if_pos (by omega)⟩
  set ph := burgersWith fun l _ => l ^ 2 / 2 with hph
  choose m hm using fun i => (constructors (pair_pos i) gauss2_exact).2.2.2 le_rfl (by norm_num)
  have bm : ∀ i, Built (pair i) (m i) := fun i => .lobatto (hm i)
  have hk : ∀ i, (m i).kind = .lobatto := fun i => by
    obtain ⟨_, _, hl⟩ := lobatto_cases (hm i)
    exact (lagrange_sane (by simp) (pair_pos i) hl).2.2.1
  choose a ha _ using fun i => exists_coeff (pair_pos i) (bm i) (C (i : ℕ) : ℝ[X]) (by simp)
  let g : Grid 1 0 ℝ := ⟨fun i => ⟨m i, setCoeff (m i) (a i), none⟩, none⟩
  have va : ∀ i x, (m i).value (setCoeff (m i) (a i)) x = (i : ℕ) := fun i x => by
    have := field_eq (pair_pos i) (bm i) (a i) x
    simp only [smul_eq_mul, mul_comm _ (a i _), ← ha, eval_C] at this
    exact this
  choose r hr hr' using fun i => same_as_dg pair_pos ph g bm (fun i => .coeff _ rfl) (fun _ => rfl) rfl (fun _ => rfl)
    (v := v) (.inl ⟨hv, by norm_num, hk⟩) i
  have hbd : ∀ i, boundaryDerivatives (m i) (setCoeff (m i) (a i)) 0 false = (i : ℕ) := fun i => by
    rw [((value_derivatives (pair_pos i) (bm i) (.coeff (a i) rfl) 0).2 0).2.2.2.1, iteratedDeriv_zero, va]
  have hf0 : leftFace ph g 0 = (1 / 2, 0) := by
    have h1 := hbd (Fin.last _)
    simp only [leftFace, if_true, g, interface, hph, burgersWith, Cell.extra] at h1 ⊢
    rw [h1]
    simp
  have hf1 : leftFace ph g 1 = (0, 0) := by
    have h1 := hbd (1 - 1)
    simp only [leftFace, one_ne_zero, if_false, g, interface, hph, burgersWith, Cell.extra] at h1 ⊢
    rw [h1]
    simp
  refine ⟨v, g, r, hv, hk, fun i => ⟨hr i, hr' i⟩, ?_, ?_⟩
  · rw [cell_balance (pair_pos 0) ph (g.cells 0) (bm 0) (.coeff _ rfl) _ (hr' 0)]
    have h1 : rightFace ph g 0 = leftFace ph g (0 + 1) := by
      rw [rightFace, if_neg (by simp [Fin.ext_iff])]
    change rightFace ph g 0 = leftFace ph g 1 at h1
    simp only [faceData, h1, hf0, hf1]
    norm_num
  · rw [cell_balance (pair_pos 1) ph (g.cells 1) (bm 1) (.coeff _ rfl) _ (hr' 1)]
    have h1 : rightFace ph g 1 = leftFace ph g 0 := by
      rw [rightFace, if_pos (by simp [Fin.ext_iff])]
    simp only [faceData, h1, hf0, hf1]
    norm_num

end MiniCFD.PyFR
