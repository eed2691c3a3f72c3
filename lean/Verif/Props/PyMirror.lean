import Verif.Lemmas.PyMirror
import Verif.Props.PyRK
import Verif.Props.PyScalar
import Verif.Props.PyEuler
import Verif.Model.PyEnergy

/-! # C149: the discontinuous Galerkin schemes of the Python code in a mirror -/

namespace MiniCFD.PyMirror
open MiniCFD.PyQuad MiniCFD.PyExpansion MiniCFD.PyDG MiniCFD.Spec.PyMirror Polynomial
open MiniCFD.Spec.Gauss (ExactTo)
open MiniCFD.RK (Sys)

variable {p n : ℕ} {c c' : Coordinate} {w : ℝ} {V : Type*} [NormedAddCommGroup V] [NormedSpace ℝ V] {M : V →L[ℝ] V}
  {D : V → Prop} {ph ph' : Physics V}

/-- Two elements that hold images of each other.  The bases need not be of one kind; the values that the scheme looks at
lie in `D`. -/
structure Pair (M : V →L[ℝ] V) (D : V → Prop) (w : ℝ) (c c' : Coordinate) (K K' : Cell p V) : Prop where
  opposite : Opposite w c c'
  built : Built c K.setup
  built' : Built c' K'.setup
  reached : Reached K.setup K.state
  reached' : Reached K'.setup K'.state
  kind : K'.setup.kind = .lobatto ↔ K.setup.kind = .lobatto
  value : Image M w (K.setup.value K.state) (K'.setup.value K'.state)
  viscous : K'.viscosity.isSome = K.viscosity.isSome
  viscosity : ∀ x, K'.extra x = K.extra (w - x)
  inside : ∀ j, D (K.setup.value K.state (K.setup.integrator.points j))
  left : D (K.setup.value K.state c.xLeft)
  right : D (K.setup.value K.state c.xRight)

theorem Pair.pos {K K' : Cell p V} (h : Pair M D w c c' K K') (hc : c.xLeft < c.xRight) : c'.xLeft < c'.xRight := by
  rw [h.opposite.left, h.opposite.right]; linarith

/-- The flux inside. -/
theorem Pair.flux (hp : Mirrors M D ph ph') (hc : c.xLeft < c.xRight) {K K' : Cell p V} (h : Pair M D w c c' K K') {x : ℝ}
    (hx : D (K.setup.value K.state (w - x))) : dgFluxAt ph' K' x = -(M (dgFluxAt ph K (w - x))) := by
  have e : K'.setup.value K'.state x = M (K.setup.value K.state (w - x)) := h.value x
  have d := derivative_mirror hc h.built h.reached h.value 1 x
  simp only [iteratedDeriv_one, pow_one, neg_smul, one_smul] at d
  rw [dgFluxAt_eq (h.pos hc) ph' K' h.built' h.reached', dgFluxAt_eq hc ph K h.built h.reached, d, e]
  simp only [dgFlux, h.viscous, hp.inviscid, h.viscosity]
  split_ifs
  · rw [hp.convective _ hx, hp.diffusive, map_sub]; abel
  · exact hp.convective _ hx

/-- **One element.**  If what its faces pass to it is the image of what they pass to the other one, its residual is the
image of the other residual. -/
theorem cell_mirror (hp : Mirrors M D ph ph') (hc : c.xLeft < c.xRight) {K K' : Cell p V} (h : Pair M D w c c' K K')
    {f f' : FaceData V} (hl : f'.leftFlux = -(M f.rightFlux)) (hr : f'.rightFlux = -(M f.leftFlux))
    (hl' : f'.leftJump = -(M f.rightJump)) (hr' : f'.rightJump = -(M f.leftJump)) {r r' : Fin (p + 1) → V}
    (hres : cellResidual ph K f = some r) (hres' : cellResidual ph' K' f' = some r') :
    Image M w (field K.setup r) (field K'.setup r') := by
  have hc' := h.pos hc
  obtain ⟨r1, h1, hw⟩ := weak_form hc ph K h.built h.reached f
  obtain ⟨r2, h2, hw'⟩ := weak_form hc' ph' K' h.built' h.reached' f'
  rw [hres] at h1; cases h1
  rw [hres'] at h2; cases h2
  -- the image of the first residual in the second basis
  choose q hq using fun k => (basis_values hc h.built k).1
  have hdeg : ∀ k, ((q k).comp (C w - X)).natDegree ≤ p := fun k => by
    refine natDegree_comp_le.trans ?_
    have : (C w - X : ℝ[X]).natDegree ≤ 1 := (natDegree_sub_le _ _).trans (max_le (by simp) natDegree_X_le)
    exact (Nat.mul_le_mul_left _ this).trans (by rw [mul_one]; exact (hq k).1)
  choose A hA _ using fun k => exists_coeff hc' h.built' ((q k).comp (C w - X)) (hdeg k)
  have e : ∀ x, M (field K.setup r (w - x)) = field K'.setup (fun i => ∑ k, A k i • M (r k)) x := by
    intro x
    rw [field_eq hc' h.built', field_eq hc h.built, map_sum]
    have : ∀ k, K.setup.basisValues (w - x) k = ∑ i, A k i * K'.setup.basisValues x i := fun k => by
      rw [← hA k x, (hq k).2]; simp
    simp only [map_smul]
    simp only [this, Finset.smul_sum, Finset.sum_smul, smul_smul]
    rw [Finset.sum_comm]
    exact Finset.sum_congr rfl fun i _ => Finset.sum_congr rfl fun k _ => by rw [mul_comm]
  have hd : (fun i => r' i - ∑ k, A k i • M (r k)) = 0 := by
    refine residual_unique hc' h.built' _ fun φ hφ => ?_
    have e1 : ∀ x, field K'.setup (fun i => r' i - ∑ k, A k i • M (r k)) x =
        field K'.setup r' x - M (field K.setup r (w - x)) := by
      intro x
      rw [e, field_eq hc' h.built', field_eq hc' h.built', field_eq hc' h.built', ← Finset.sum_sub_distrib]
      exact Finset.sum_congr rfl fun i _ => smul_sub _ _ _
    -- the test function in the mirror
    let ψ : ℝ[X] := φ.comp (C w - X)
    have hψ : ψ.natDegree ≤ p := by
      refine natDegree_comp_le.trans ?_
      have : (C w - X : ℝ[X]).natDegree ≤ 1 := (natDegree_sub_le _ _).trans (max_le (by simp) natDegree_X_le)
      exact (Nat.mul_le_mul_left _ this).trans (by rw [mul_one]; exact hφ)
    have ev : ∀ x, ψ.eval x = φ.eval (w - x) := fun x => by simp [ψ]
    have ed : ∀ x, (derivative ψ).eval x = -(derivative φ).eval (w - x) := fun x => by
      simp [ψ, derivative_comp]
    have integ : ∀ g : ℝ → V, M (K.setup.integrator.integrate g) = K.setup.integrator.integrate fun x => M (g x) := by
      intro g
      simp only [Integrator.integrate_eq, map_sum, map_smul]
    have e2 : K'.setup.integrator.integrate (fun x => φ.eval x • field K'.setup r' x) =
        K'.setup.integrator.integrate (fun x => φ.eval x • M (field K.setup r (w - x))) := by
      rw [hw' φ hφ, integrate_mirror hc h.opposite h.built h.built' h.kind,
        integrate_mirror hc h.opposite h.built h.built' h.kind]
      have lhs := congrArg M (hw ψ hψ)
      rw [integ] at lhs
      have l2 : (K.setup.integrator.integrate fun x => φ.eval (w - x) • M (field K.setup r (w - (w - x)))) =
          K.setup.integrator.integrate fun x => M (ψ.eval x • field K.setup r x) := by
        congr 1
        funext x
        rw [ev, map_smul, sub_sub_cancel]
      rw [l2, lhs, map_sub, map_sub, map_add, integ]
      have l3 : (K.setup.integrator.integrate fun x => (derivative φ).eval (w - x) • dgFluxAt ph' K' (w - x)) =
          K.setup.integrator.integrate fun x => M ((derivative ψ).eval x • dgFluxAt ph K x) := by
        rw [Integrator.integrate_eq, Integrator.integrate_eq]
        refine Finset.sum_congr rfl fun j _ => congrArg _ ?_
        have hj := h.inside j
        rw [h.flux hp hc (by rw [sub_sub_cancel]; exact hj), ed, map_smul, sub_sub_cancel]
        simp
      rw [l3, h.opposite.left, h.opposite.right, hl, hr, hl', hr', map_add]
      generalize (K.setup.integrator.integrate fun x => M ((derivative ψ).eval x • dgFluxAt ph K x)) = I
      simp only [map_neg, map_smul, ev, ed, smul_neg, neg_smul]
      abel
    simp only [e1, smul_sub, Integrator.integrate_eq, Finset.sum_sub_distrib]
    simp only [Integrator.integrate_eq] at e2
    rw [e2, sub_self]
  intro x
  rw [e]
  congr 1
  funext i
  exact sub_eq_zero.1 (congrFun hd i)

/-- The derivatives at the two ends of an element. -/
theorem Pair.ends (hc : c.xLeft < c.xRight) {K K' : Cell p V} (h : Pair M D w c c' K K') (k : ℕ) :
    boundaryDerivatives K'.setup K'.state k true = (-1 : ℝ) ^ k • M (boundaryDerivatives K.setup K.state k false) ∧
      boundaryDerivatives K'.setup K'.state k false = (-1 : ℝ) ^ k • M (boundaryDerivatives K.setup K.state k true) := by
  have v := (value_derivatives hc h.built h.reached 0).2 k
  have v' := (value_derivatives (h.pos hc) h.built' h.reached' 0).2 k
  rw [v.2.2.1, v.2.2.2.1, v'.2.2.1, v'.2.2.2.1, derivative_mirror hc h.built h.reached h.value,
    derivative_mirror hc h.built h.reached h.value, h.opposite.left, h.opposite.right, sub_sub_cancel, sub_sub_cancel]
  exact ⟨rfl, rfl⟩

/-- **One interface**, with its neighbours changing sides. -/
theorem interface_mirror (hp : Mirrors M D ph ph') {cl cr cl' cr' : Coordinate} (hl : cl.xLeft < cl.xRight)
    (hr : cr.xLeft < cr.xRight) {L R L' R' : Cell p V} (h : Pair M D w cl cl' L L') (h' : Pair M D w cr cr' R R') :
    interface ph' R' L' = (-(M (interface ph L R).1), -(M (interface ph L R).2)) := by
  have a := fun k => (h.ends hl k).1
  have b := fun k => (h'.ends hr k).2
  have dl : D (boundaryDerivatives L.setup L.state 0 false) := by
    rw [((value_derivatives hl h.built h.reached 0).2 0).2.2.2.1, iteratedDeriv_zero]; exact h.right
  have dr : D (boundaryDerivatives R.setup R.state 0 true) := by
    rw [((value_derivatives hr h'.built h'.reached 0).2 0).2.2.1, iteratedDeriv_zero]; exact h'.left
  have len : L'.setup.coordinate.length = L.setup.coordinate.length ∧ R'.setup.coordinate.length = R.setup.coordinate.length := by
    rw [(h.built.sane hl).2, (h'.built.sane hr).2, (h.built'.sane (h.pos hl)).2, (h'.built'.sane (h'.pos hr)).2,
      cl.eq_linear.1, cr.eq_linear.1, cl'.eq_linear.1, cr'.eq_linear.1, h.opposite.left, h.opposite.right, h'.opposite.left,
      h'.opposite.right]
    constructor <;> ring
  have ex : min (R'.extra R'.setup.coordinate.xRight) (L'.extra L'.setup.coordinate.xLeft) =
      min (L.extra L.setup.coordinate.xRight) (R.extra R.setup.coordinate.xLeft) := by
    rw [(h.built.sane hl).2, (h'.built.sane hr).2, (h.built'.sane (h.pos hl)).2, (h'.built'.sane (h'.pos hr)).2,
      h.viscosity, h'.viscosity, h.opposite.left, h'.opposite.right, sub_sub_cancel, sub_sub_cancel, min_comm]
  have hup := hp.upwind _ _ dl dr
  have first : ∀ v : V, (if 0 < p then (-1 : ℝ) ^ 1 • M v else 0) = -(M (if 0 < p then v else 0)) := fun v => by
    split_ifs <;> simp
  have second : ∀ v : V, (if 1 < p then (-1 : ℝ) ^ 2 • M v else 0) = M (if 1 < p then v else 0) := fun v => by
    split_ifs <;> simp
  unfold interface
  simp only [a, b, ex, len.1, len.2, pow_zero, one_smul, hp.coefficient, first, second]
  rw [min_comm (ph.coefficient (boundaryDerivatives R.setup R.state 0 true))]
  generalize (if 0 < p then boundaryDerivatives L.setup L.state 1 false else 0) = duL
  generalize (if 0 < p then boundaryDerivatives R.setup R.state 1 true else 0) = duR
  generalize (if 1 < p then boundaryDerivatives L.setup L.state 2 false else 0) = dduL
  generalize (if 1 < p then boundaryDerivatives R.setup R.state 2 true else 0) = dduR
  generalize boundaryDerivatives L.setup L.state 0 false = uL at *
  generalize boundaryDerivatives R.setup R.state 0 true = uR at *
  by_cases h0 : min (L.extra L.setup.coordinate.xRight) (R.extra R.setup.coordinate.xLeft) +
      min (ph.coefficient uL) (ph.coefficient uR) = 0
  · rw [if_pos h0, if_pos h0, hup]
    simp
  · rw [if_neg h0, if_neg h0]
    have grad : interfaceGradient R.setup.coordinate.length L.setup.coordinate.length (M uL - M uR)
        ((2 : ℝ)⁻¹ • (-(M duR) + -(M duL))) (M dduL - M dduR) =
        -(M (interfaceGradient L.setup.coordinate.length R.setup.coordinate.length (uR - uL)
          ((2 : ℝ)⁻¹ • (duL + duR)) (dduR - dduL))) := by
      simp only [interfaceGradient, map_add, map_smul, map_sub, add_comm R.setup.coordinate.length]
      module
    have mean : (2 : ℝ)⁻¹ • (M uR + M uL) = M ((2 : ℝ)⁻¹ • (uL + uR)) := by rw [map_smul, map_add, add_comm]
    rw [grad, mean, hp.diffusive, hup]
    simp only [map_smul, map_sub]
    refine Prod.ext ?_ ?_ <;> dsimp only
    · abel
    · rw [← smul_neg, neg_sub]

/-- A grid and its image: element `i` has its image in element `n + 1 - i`, and the values given at the ends change
sides. -/
structure PairGrid (M : V →L[ℝ] V) (D : V → Prop) (w : ℝ) (co co' : Fin (n + 2) → Coordinate) (g g' : Grid p n V) :
    Prop where
  pair : ∀ i, Pair M D w (co i) (co' i.rev) (g.cells i) (g'.cells i.rev)
  boundary : g'.boundary = g.boundary.map fun u => (M u.2, M u.1)
  given : ∀ u, g.boundary = some u → D u.1 ∧ D u.2

/-- The faces of the elements. -/
theorem face_mirror (hp : Mirrors M D ph ph') {co co' : Fin (n + 2) → Coordinate} (hc : ∀ i, (co i).xLeft < (co i).xRight)
    {g g' : Grid p n V} (h : PairGrid M D w co co' g g') (i : Fin (n + 2)) :
    leftFace ph' g' i.rev = (-(M (rightFace ph g i).1), -(M (rightFace ph g i).2)) ∧
      rightFace ph' g' i.rev = (-(M (leftFace ph g i).1), -(M (leftFace ph g i).2)) := by
  have inner : ∀ i j, interface ph' (g'.cells (Fin.rev j)) (g'.cells (Fin.rev i)) =
      (-(M (interface ph (g.cells i) (g.cells j)).1), -(M (interface ph (g.cells i) (g.cells j)).2)) :=
    fun i j => interface_mirror hp (hc i) (hc j) (h.pair i) (h.pair j)
  have last : (Fin.last (n + 1)).rev = 0 := Fin.rev_last _
  have zero : (0 : Fin (n + 2)).rev = Fin.last _ := Fin.rev_zero _
  have dl : D (boundaryDerivatives (g.cells 0).setup (g.cells 0).state 0 true) := by
    rw [((value_derivatives (hc 0) (h.pair 0).built (h.pair 0).reached 0).2 0).2.2.1, iteratedDeriv_zero]
    exact (h.pair 0).left
  have dr : D (boundaryDerivatives (g.cells (Fin.last _)).setup (g.cells (Fin.last _)).state 0 false) := by
    rw [((value_derivatives (hc _) (h.pair (Fin.last _)).built (h.pair (Fin.last _)).reached 0).2 0).2.2.2.1,
      iteratedDeriv_zero]
    exact (h.pair (Fin.last _)).right
  have wrap : ∀ hb : g.boundary = none, leftFace ph' g' 0 = (-(M (leftFace ph g 0).1), -(M (leftFace ph g 0).2)) := by
    intro hb
    have hb' : g'.boundary = none := by rw [h.boundary, hb]; rfl
    have := inner (Fin.last _) 0
    rw [last, zero] at this
    simp only [leftFace, if_true, hb, hb']
    exact this
  -- interior faces
  have mid : ∀ i : Fin (n + 2), i ≠ Fin.last _ → leftFace ph' g' i.rev =
      (-(M (leftFace ph g (i + 1)).1), -(M (leftFace ph g (i + 1)).2)) := by
    intro i hi
    have h1 : i.rev ≠ 0 := fun e => hi (by rw [← Fin.rev_rev i, e, zero])
    have h2 : i + 1 ≠ 0 := fun e => hi (by
      have := congrArg (· - 1) e
      simp only [add_sub_cancel_right, zero_sub] at this
      rw [this]
      exact (eq_neg_of_add_eq_zero_left (Fin.last_add_one (n + 1))).symm)
    have h3 : i.rev - 1 = (i + 1).rev := by
      have hlt : (i : ℕ) < n + 1 := by
        have := Fin.lt_last_iff_ne_last.2 hi
        exact this
      rw [sub_eq_iff_eq_add]
      apply Fin.ext
      have e1 : ((i + 1 : Fin (n + 2)) : ℕ) = i + 1 := Fin.val_add_one_of_lt' (by omega)
      have e2 : (((i + 1).rev + 1 : Fin (n + 2)) : ℕ) = ((i + 1).rev : ℕ) + 1 :=
        Fin.val_add_one_of_lt' (by rw [Fin.val_rev, e1]; omega)
      rw [e2, Fin.val_rev, Fin.val_rev, e1]
      omega
    have := inner i (i + 1)
    rw [leftFace, if_neg h1, h3, this]
    rw [leftFace, if_neg h2, add_sub_cancel_right]
  constructor
  · by_cases hi : i = Fin.last _
    · subst hi
      rw [last, rightFace, if_pos rfl]
      cases hb : g.boundary with
      | none => exact wrap hb
      | some u =>
        have hb' : g'.boundary = some (M u.2, M u.1) := by rw [h.boundary, hb]; rfl
        simp only [leftFace, if_true, hb']
        have e := ((h.pair (Fin.last _)).ends (hc _) 0).1
        rw [last, pow_zero, one_smul] at e
        rw [e, hp.upwind _ _ dr (h.given u hb).2]
        simp
    · rw [mid i hi, rightFace, if_neg hi]
  · by_cases hi : i = 0
    · subst hi
      rw [zero, rightFace, if_pos rfl]
      cases hb : g.boundary with
      | none =>
        have hb' : g'.boundary = none := by rw [h.boundary, hb]; rfl
        rw [hb']
        exact wrap hb
      | some u =>
        have hb' : g'.boundary = some (M u.2, M u.1) := by rw [h.boundary, hb]; rfl
        rw [hb']
        have e := ((h.pair 0).ends (hc _) 0).2
        rw [zero, pow_zero, one_smul] at e
        simp only [leftFace, if_true, hb]
        rw [e, hp.upwind _ _ (h.given u hb).1 dl]
        simp
    · have h1 : i.rev ≠ Fin.last _ := fun e => hi (by rw [← Fin.rev_rev i, e, last])
      have h2 : i - 1 ≠ Fin.last _ := fun e => hi (by
        rw [sub_eq_iff_eq_add] at e
        rw [e]; exact Fin.last_add_one _)
      have := mid (i - 1) h2
      rw [sub_add_cancel] at this
      rw [rightFace, if_neg h1, ← this]
      congr 1
      have h0 : 0 < (i : ℕ) := Nat.pos_of_ne_zero fun e => hi (Fin.ext e)
      have e1 : ((i - 1 : Fin (n + 2)) : ℕ) = i - 1 := Fin.val_sub_one_of_ne_zero hi
      apply Fin.ext
      have e2 : ((i.rev + 1 : Fin (n + 2)) : ℕ) = (i.rev : ℕ) + 1 :=
        Fin.val_add_one_of_lt' (by rw [Fin.val_rev]; omega)
      rw [e2, Fin.val_rev, Fin.val_rev, e1]
      omega

/-- **C149.**  The scheme computes on the image of a grid the image of what it computes on the grid: with any kinds of
bases (also different ones at the two sides), with artificial viscosity, with periodic ends and with given values. -/
theorem scheme_mirror (hp : Mirrors M D ph ph') {co co' : Fin (n + 2) → Coordinate}
    (hc : ∀ i, (co i).xLeft < (co i).xRight) {g g' : Grid p n V} (h : PairGrid M D w co co' g g') (i : Fin (n + 2))
    {r r' : Fin (p + 1) → V} (hres : residual ph g i = some r) (hres' : residual ph' g' i.rev = some r') :
    Image M w (field (g.cells i).setup r) (field (g'.cells i.rev).setup r') := by
  obtain ⟨e1, e2⟩ := face_mirror hp hc h i
  refine cell_mirror hp (hc i) (h.pair i) ?_ ?_ ?_ ?_ hres hres' <;> simp only [faceData, e1, e2]

/-! ### Runs -/

/-- The residuals that were evaluated are not forgotten. -/
theorem evals_step {V : Type*} [AddCommGroup V] [Module ℝ V] {R : ℝ → V → V} {order : ℕ} {dt t : ℝ} {s s' : Sys ℝ V}
    (h : PyRK.update order id R dt t s = some s') : ∀ e ∈ s.evals, e ∈ s'.evals := by
  intro e he
  unfold PyRK.update at h
  split at h <;> cases h <;>
    simp only [PyRK.rk1, PyRK.rk2, PyRK.rk3, PyRK.rk4, PyRK.euler, PyRK.uNext, PyRK.store, Sys.residual, Sys.setTime,
      Sys.setSol, List.mem_append, he, true_or]

theorem evals_march {V : Type*} [AddCommGroup V] [Module ℝ V] {R : ℝ → V → V} {order : ℕ} :
    ∀ (dts : List ℝ) (t : ℝ) {s s' : Sys ℝ V}, PyRK.march order id R dts t s = some s' → ∀ e ∈ s.evals, e ∈ s'.evals := by
  intro dts
  induction dts with
  | nil => intro t s s' h e he; cases h; exact he
  | cons dt dts ih =>
    intro t s s' h e he
    obtain ⟨s1, h1, h2⟩ := Option.bind_eq_some_iff.1 h
    exact ih _ h2 e (evals_step h1 e he)

/-- Relations that are kept by sums and multiples and by the two residuals are kept by all steps, as long as the residual is
only asked for in good states. -/
theorem march_relation {V W : Type*} [AddCommGroup V] [Module ℝ V] [AddCommGroup W] [Module ℝ W] {S : V → W → Prop}
    {G : V → Prop} (hadd : ∀ {u v u' v'}, S u u' → S v v' → S (u + v) (u' + v'))
    (hsmul : ∀ (a : ℝ) {u u'}, S u u' → S (a • u) (a • u')) {R : ℝ → V → V} {R' : ℝ → W → W}
    (hR : ∀ t {u u'}, G u → S u u' → S (R t u) (R' t u')) (order : ℕ) :
    ∀ (dts : List ℝ) (t : ℝ) {s s' : Sys ℝ V} {q q' : Sys ℝ W}, S s.sol q.sol →
      PyRK.march order id R dts t s = some s' → PyRK.march order id R' dts t q = some q' →
      (∀ e ∈ s'.evals, G e.2) → S s'.sol q'.sol := by
  intro dts
  induction dts with
  | nil => intro t s s' q q' h h1 h2 _; cases h1; cases h2; exact h
  | cons dt dts ih =>
    intro t s s' q q' h h1 h2 hG
    obtain ⟨s1, h1, h1'⟩ := Option.bind_eq_some_iff.1 h1
    obtain ⟨q1, h2, h2'⟩ := Option.bind_eq_some_iff.1 h2
    refine ih _ ?_ h1' h2' hG
    replace hG : ∀ e ∈ s1.evals, G e.2 := fun e he => hG e (evals_march dts _ h1' e he)
    clear ih h1' h2'
    unfold PyRK.update at h1 h2
    split at h1 <;> cases h1 <;> cases h2 <;>
      simp only [PyRK.rk1, PyRK.rk2, PyRK.rk3, PyRK.rk4, PyRK.euler, PyRK.uNext, PyRK.store, Sys.residual, Sys.setTime,
        Sys.setSol, id, List.forall_mem_append, List.forall_mem_singleton] at hG ⊢ <;>
      repeat first
        | exact h | exact hG.2 | exact hG.1.2 | exact hG.1.1.2 | exact hG.1.1.1.2 | apply hadd | apply hsmul | apply hR

/-- The grid with the given coefficients. -/
noncomputable def gridOf (setup : Fin (n + 2) → Setup p) (ends : Option (V × V)) (u : Fin (n + 2) → Fin (p + 1) → V) :
    Grid p n V := ⟨fun i => ⟨setup i, setCoeff (setup i) (u i), none⟩, ends⟩

/-- What `get_residual_column` returns for the coefficients `u`. -/
def IsResidual (ph : Physics V) (setup : Fin (n + 2) → Setup p) (ends : Option (V × V))
    (R : ℝ → (Fin (n + 2) → Fin (p + 1) → V) → Fin (n + 2) → Fin (p + 1) → V) : Prop :=
  ∀ t u i, residual ph (gridOf setup ends u) i = some (R t u i)

/-- There is such a column. -/
theorem exists_residual {co : Fin (n + 2) → Coordinate} (hc : ∀ i, (co i).xLeft < (co i).xRight) (ph : Physics V)
    {setup : Fin (n + 2) → Setup p} (hb : ∀ i, Built (co i) (setup i)) (ends : Option (V × V)) :
    ∃ R, IsResidual ph setup ends R := by
  choose r hr _ using fun (u : Fin (n + 2) → Fin (p + 1) → V) i => weak_form (hc i) ph
    ((gridOf setup ends u).cells i) (hb i) (.coeff _ rfl) (faceData ph (gridOf setup ends u) i)
  exact ⟨fun _ u => r u, fun _ u i => hr u i⟩

/-- Columns of two grids that hold images of each other. -/
def Images (M : V →L[ℝ] V) (w : ℝ) (setup setup' : Fin (n + 2) → Setup p) (u u' : Fin (n + 2) → Fin (p + 1) → V) : Prop :=
  ∀ i, Image M w (field (setup i) (u i)) (field (setup' i.rev) (u' i.rev))

/-- Two grids without states that are images of each other. -/
structure Facing (w : ℝ) (co co' : Fin (n + 2) → Coordinate) (setup setup' : Fin (n + 2) → Setup p) : Prop where
  pos : ∀ i, (co i).xLeft < (co i).xRight
  opposite : ∀ i, Opposite w (co i) (co' i.rev)
  built : ∀ i, Built (co i) (setup i)
  built' : ∀ i, Built (co' i) (setup' i)
  kind : ∀ i, (setup' i.rev).kind = .lobatto ↔ (setup i).kind = .lobatto

theorem Facing.pos' {co co' : Fin (n + 2) → Coordinate} {setup setup' : Fin (n + 2) → Setup p}
    (hf : Facing w co co' setup setup') (i : Fin (n + 2)) : (co' i).xLeft < (co' i).xRight := by
  have := hf.opposite i.rev
  rw [Fin.rev_rev] at this
  have h := hf.pos i.rev
  rw [this.left, this.right]; linarith

theorem images_add {co co' : Fin (n + 2) → Coordinate} {setup setup' : Fin (n + 2) → Setup p}
    (hf : Facing w co co' setup setup') {u v u' v' : Fin (n + 2) → Fin (p + 1) → V} (hu : Images M w setup setup' u u')
    (hv : Images M w setup setup' v v') : Images M w setup setup' (u + v) (u' + v') := by
  intro i x
  have a := hu i x
  have b := hv i x
  rw [field_eq (hf.pos i) (hf.built i), field_eq (hf.pos' _) (hf.built' _)] at a b ⊢
  simp only [Pi.add_apply, smul_add, Finset.sum_add_distrib, map_add, a, b]

theorem images_smul {co co' : Fin (n + 2) → Coordinate} {setup setup' : Fin (n + 2) → Setup p}
    (hf : Facing w co co' setup setup') (k : ℝ) {u u' : Fin (n + 2) → Fin (p + 1) → V} (hu : Images M w setup setup' u u') :
    Images M w setup setup' (k • u) (k • u') := by
  intro i x
  have a := hu i x
  rw [field_eq (hf.pos i) (hf.built i), field_eq (hf.pos' _) (hf.built' _)] at a ⊢
  simp only [Pi.smul_apply, smul_comm _ k, ← Finset.smul_sum, map_smul, a]

/-- The values that the scheme looks at lie in `D`. -/
def Within (D : V → Prop) (co : Fin (n + 2) → Coordinate) (setup : Fin (n + 2) → Setup p)
    (u : Fin (n + 2) → Fin (p + 1) → V) : Prop :=
  ∀ i, (∀ j, D (field (setup i) (u i) ((setup i).integrator.points j))) ∧ D (field (setup i) (u i) (co i).xLeft) ∧
    D (field (setup i) (u i) (co i).xRight)

theorem pairGrid_of {co co' : Fin (n + 2) → Coordinate} {setup setup' : Fin (n + 2) → Setup p}
    (hf : Facing w co co' setup setup') {ends : Option (V × V)} (he : ∀ u, ends = some u → D u.1 ∧ D u.2)
    {u u' : Fin (n + 2) → Fin (p + 1) → V} (hD : Within D co setup u) (hu : Images M w setup setup' u u') :
    PairGrid M D w co co' (gridOf setup ends u) (gridOf setup' (ends.map fun u => (M u.2, M u.1)) u') := by
  refine ⟨fun i => ?_, rfl, he⟩
  exact ⟨hf.opposite i, hf.built i, hf.built' _, .coeff _ rfl, .coeff _ rfl, hf.kind i, hu i, rfl, fun _ => rfl,
    (hD i).1, (hD i).2.1, (hD i).2.2⟩

/-- **C149.**  So do runs of all orders, of any number of steps of any sizes, as long as the first run asks for residuals
only where the solver has its mirror image. -/
theorem run_mirror {co co' : Fin (n + 2) → Coordinate} {setup setup' : Fin (n + 2) → Setup p}
    (hf : Facing w co co' setup setup') (hp : Mirrors M D ph ph') {ends : Option (V × V)}
    (he : ∀ u, ends = some u → D u.1 ∧ D u.2)
    {R R' : ℝ → (Fin (n + 2) → Fin (p + 1) → V) → Fin (n + 2) → Fin (p + 1) → V} (hR : IsResidual ph setup ends R)
    (hR' : IsResidual ph' setup' (ends.map fun u => (M u.2, M u.1)) R') (order : ℕ) (dts : List ℝ) (t : ℝ)
    {s s' q q' : Sys ℝ (Fin (n + 2) → Fin (p + 1) → V)} (h : Images M w setup setup' s.sol q.sol)
    (h1 : PyRK.march order id R dts t s = some s') (h2 : PyRK.march order id R' dts t q = some q')
    (hD : ∀ e ∈ s'.evals, Within D co setup e.2) : Images M w setup setup' s'.sol q'.sol := by
  refine march_relation (S := Images M w setup setup') (G := Within D co setup) (images_add hf) (images_smul hf) ?_
    order dts t h h1 h2 hD
  intro t u u' hG hu i
  exact scheme_mirror hp hf.pos (pairGrid_of hf he hG hu) i (hR t u i) (hR' t u' i.rev)

/-- **C149.**  If grid, equation and boundary values are their own images, so remains everything that starts as its own
image. -/
theorem symmetric_stays {co : Fin (n + 2) → Coordinate} {setup : Fin (n + 2) → Setup p} (hf : Facing w co co setup setup)
    (hp : Mirrors M D ph ph) {ends : Option (V × V)} (he : ∀ u, ends = some u → D u.1 ∧ D u.2)
    (hs : ∀ u, ends = some u → u = (M u.2, M u.1))
    {R : ℝ → (Fin (n + 2) → Fin (p + 1) → V) → Fin (n + 2) → Fin (p + 1) → V} (hR : IsResidual ph setup ends R) (order : ℕ)
    (dts : List ℝ) (t : ℝ) {s s' : Sys ℝ (Fin (n + 2) → Fin (p + 1) → V)} (h : Images M w setup setup s.sol s.sol)
    (h1 : PyRK.march order id R dts t s = some s') (hD : ∀ e ∈ s'.evals, Within D co setup e.2) :
    Images M w setup setup s'.sol s'.sol := by
  refine run_mirror hf hp he hR ?_ order dts t h h1 h1 hD
  have : (ends.map fun u => (M u.2, M u.1)) = ends := by
    cases ends with
    | none => rfl
    | some u => exact congrArg some (hs u rfl).symm
  rw [this]; exact hR

/-! ### The equations and solvers of the code -/

open MiniCFD.PyEnergy (physics)

/-- Advection and diffusion: the speed changes its sign. -/
theorem linear_mirrors (a b : ℝ) : Mirrors (ContinuousLinearMap.id ℝ ℝ) (fun _ => True)
    (physics (PyScalar.linearSolver a b)) (physics (PyScalar.linearSolver (-a) b)) := by
  refine ⟨fun u _ => ?_, fun u du nu => ?_, fun u => rfl, rfl, fun l r _ _ => ?_⟩
  · simp [physics, PyScalar.linearSolver, PyScalar.linear]
  · simp [physics, PyScalar.linearSolver, PyScalar.linear, PyScalar.Equation.diffusiveFlux]
  · simp only [physics, PyScalar.linearSolver, PyScalar.linear, PyScalar.Solver.upwindFlux, PyScalar.Solver.getValue,
      one_ne_zero, if_false, zero_div, ContinuousLinearMap.id_apply]
    rcases lt_trichotomy a 0 with h | h | h
    · rw [if_pos (by linarith), if_neg (by linarith)]; ring
    · subst h; simp
    · rw [if_neg (by linarith), if_pos h.le]; ring

/-- Burgers: the value changes its sign. -/
theorem burgers_mirrors {k : ℝ} (hk : 0 < k) : Mirrors (-ContinuousLinearMap.id ℝ ℝ) (fun _ => True)
    (physics (PyScalar.burgersSolver k)) (physics (PyScalar.burgersSolver k)) := by
  refine ⟨fun u _ => ?_, fun u du nu => ?_, fun u => rfl, rfl, fun l r _ _ => ?_⟩
  · simp [physics, PyScalar.burgersSolver, PyScalar.burgers]
  · simp [physics, PyScalar.burgersSolver, PyScalar.burgers, PyScalar.Equation.diffusiveFlux]
  · have e : ∀ a b : ℝ, (PyScalar.burgers k).flux '' Set.Icc (-b) (-a) = (PyScalar.burgers k).flux '' Set.Icc a b := by
      intro a b
      ext y
      constructor
      · rintro ⟨x, ⟨h1, h2⟩, rfl⟩
        exact ⟨-x, ⟨by linarith, by linarith⟩, by simp [PyScalar.burgers]⟩
      · rintro ⟨x, ⟨h1, h2⟩, rfl⟩
        exact ⟨-x, ⟨by linarith, by linarith⟩, by simp [PyScalar.burgers]⟩
    have h1 := PyScalar.burgers_godunov hk l r
    have h2 := PyScalar.burgers_godunov hk (-r) (-l)
    show (PyScalar.burgersSolver k).upwindFlux (-r) (-l) = -(-((PyScalar.burgersSolver k).upwindFlux l r))
    rw [neg_neg]
    rcases le_total l r with h | h
    · have a := h1.1 h
      have b := h2.1 (by linarith)
      rw [e] at b
      exact b.unique a
    · have a := h1.2 h
      have b := h2.2 (by linarith)
      rw [e] at b
      exact b.unique a

/-- The Euler equations in a mirror: the momentum changes its sign. -/
noncomputable def turned : PyEuler.Vec →L[ℝ] PyEuler.Vec :=
  ContinuousLinearMap.pi ![ContinuousLinearMap.proj 0, -ContinuousLinearMap.proj 1, ContinuousLinearMap.proj 2]

theorem turned_apply (U : PyEuler.Vec) : turned U = Spec.PyEuler.mirrorState U := by
  funext i
  fin_cases i <;> simp [turned, Spec.PyEuler.mirrorState]

/-- `riemann.Roe` with `equation.Euler`, riemann.py:397-440 and equation.py:230-235, without artificial viscosity (then
`get_diffusive_flux` is never called).  What raises is set to zero; the theorem only speaks about states in which nothing
raises. -/
noncomputable def roePhysics (γ : ℝ) : Physics PyEuler.Vec where
  convective U := (PyEuler.flux γ U).getD 0
  diffusive _ _ _ := 0
  coefficient _ := 0
  inviscid := true
  upwind l r := (PyEuler.roe γ l r).getD 0

/-- Euler with the solver of Roe, on states of positive density and pressure. -/
theorem roe_mirrors {γ : ℝ} (hγ : 1 < γ) : Mirrors turned (fun U => ∃ w, Spec.PyEuler.Good w ∧ U = Spec.PyEuler.state γ w)
    (roePhysics γ) (roePhysics γ) := by
  have hm : ∀ w, turned (Spec.PyEuler.state γ w) = Spec.PyEuler.state γ (Spec.PyEuler.mirror w) := by
    intro w; rw [turned_apply]; ext i
    fin_cases i <;> simp [Spec.PyEuler.mirrorState, Spec.PyEuler.state, Spec.PyEuler.mirror, Spec.PyEuler.energy]
  refine ⟨?_, fun _ _ _ => by simp [roePhysics], fun _ => rfl, rfl, ?_⟩
  · rintro _ ⟨w, hw, rfl⟩
    simp only [roePhysics]
    rw [hm, PyEuler.flux_state hγ hw.1 hw.2.le, PyEuler.flux_state hγ (w := Spec.PyEuler.mirror w) hw.1 hw.2.le]
    simp only [Option.getD_some, turned_apply]
    funext i
    fin_cases i <;> simp [Spec.PyEuler.mirrorState, Spec.PyEuler.physFlux, Spec.PyEuler.mirror, Spec.PyEuler.energy]
  · rintro _ _ ⟨l, hl, rfl⟩ ⟨r, hr, rfl⟩
    obtain ⟨f, hf, _⟩ := PyEuler.roe_state hγ hl hr
    have := PyEuler.roe_mirror hγ hl hr hf
    simp only [roePhysics, turned_apply]
    rw [this, hf]
    simp only [Option.getD_some]
    funext i
    fin_cases i <;> simp [Spec.PyEuler.mirrorState, Spec.PyEuler.mirrorFlux]

/-! ### Concrete cases -/

theorem pair_facing {setup setup' : Fin 2 → Setup p} (h : ∀ i, Built (pair i) (setup i)) (h' : ∀ i, Built (pair i) (setup' i))
    (hk : ∀ i, (setup i).kind ≠ .lobatto) (hk' : ∀ i, (setup' i).kind ≠ .lobatto) : Facing 2 pair pair setup setup' := by
  refine ⟨pair_pos, fun i => ?_, h, h', fun i => ⟨fun e => absurd e (hk' _), fun e => absurd e (hk _)⟩⟩
  fin_cases i <;> constructor <;> norm_num [pair, Coordinate.xLeft, Coordinate.xRight, Fin.rev]

/-- The standing wave `1 - x` of Burgers between 0 and 2, Legendre polynomials at the left, nodes at the right: it is odd
about the middle, and it remains odd over five steps of the third order. -/
example : ∃ (setup : Fin 2 → Setup 1) (R : ℝ → (Fin 2 → Fin 2 → ℝ) → Fin 2 → Fin 2 → ℝ) (u : Fin 2 → Fin 2 → ℝ)
    (s' : Sys ℝ (Fin 2 → Fin 2 → ℝ)), IsResidual (physics (PyScalar.burgersSolver 1)) setup (some (1, -1)) R ∧
    (∀ i x, field (setup i) (u i) x = 1 - x) ∧
    PyRK.march 3 id R [1 / 8, 1 / 8, 1 / 4, 1 / 8, 1 / 8] 0 ⟨0, u, []⟩ = some s' ∧
    ∀ i x, field (setup i.rev) (s'.sol i.rev) x = -field (setup i) (s'.sol i) (2 - x) := by
  choose m hm using fun i => (constructors (pair_pos i) gauss2_exact).2.2.1
  choose e he using fun i => (constructors (pair_pos i) gauss2_exact).1
  let setup : Fin 2 → Setup 1 := ![m 0, e 1]
  have hb : ∀ i, Built (pair i) (setup i) := by
    intro i
    fin_cases i
    · exact .modal _ gauss2_exact (hm 0)
    · exact .uniform _ gauss2_exact (he 1)
  have hk : ∀ i, (setup i).kind ≠ .lobatto := by
    intro i
    fin_cases i
    · show (m 0).kind ≠ _; rw [(modal_sane (pair_pos 0) (hm 0)).2.1]; simp
    · show (e 1).kind ≠ _; rw [(lagrange_sane (by simp) (pair_pos 1) (he 1)).2.2.1]; simp
  choose u hu _ using fun i => exists_coeff (pair_pos i) (hb i) (1 - X : ℝ[X])
    ((natDegree_sub_le _ _).trans (max_le (by simp) natDegree_X_le))
  have hv : ∀ i x, field (setup i) (u i) x = 1 - x := fun i x => by
    have := field_eq (pair_pos i) (hb i) (u i) x
    simp only [smul_eq_mul, mul_comm _ (u i _), ← hu] at this
    rw [this]; simp
  obtain ⟨R, hR⟩ := exists_residual pair_pos (physics (PyScalar.burgersSolver 1)) hb (some (1, -1))
  obtain ⟨s', hs⟩ : ∃ s', PyRK.march 3 id R [1 / 8, 1 / 8, 1 / 4, 1 / 8, 1 / 8] 0 ⟨0, u, []⟩ = some s' := ⟨_, rfl⟩
  refine ⟨setup, R, u, s', hR, hv, hs, ?_⟩
  exact symmetric_stays (pair_facing hb hb hk hk) (burgers_mirrors one_pos) (ends := some (1, -1))
    (fun _ _ => ⟨trivial, trivial⟩) (fun u hu => by cases hu; simp) hR 3 _ 0 (fun i x => by simp only [hv]; simp; ring) hs
    (fun _ _ _ => ⟨fun _ => trivial, trivial, trivial⟩)

/-- Two streams of gas that collide in the middle, degree zero, one step: the picture is its own image before and after it. -/
example : ∃ (setup : Fin 2 → Setup 0) (R : ℝ → (Fin 2 → Fin 1 → PyEuler.Vec) → Fin 2 → Fin 1 → PyEuler.Vec)
    (u : Fin 2 → Fin 1 → PyEuler.Vec) (s' : Sys ℝ (Fin 2 → Fin 1 → PyEuler.Vec)),
    IsResidual (roePhysics (7 / 5)) setup none R ∧
    (∀ x, field (setup 0) (u 0) x = Spec.PyEuler.state (7 / 5) ⟨1, 1, 1⟩ ∧
      field (setup 1) (u 1) x = Spec.PyEuler.state (7 / 5) ⟨1, -1, 1⟩) ∧
    PyRK.march 1 id R [1 / 10] 0 ⟨0, u, []⟩ = some s' ∧
    ∀ i x, field (setup i.rev) (s'.sol i.rev) x = turned (field (setup i) (s'.sol i) (2 - x)) := by
  obtain ⟨rule, exact⟩ := gauss_exists 0
  choose setup hm using fun i => (constructors (pair_pos i) exact).2.2.1
  have hb : ∀ i, Built (pair i) (setup i) := fun i => .modal _ exact (hm i)
  have hk : ∀ i, (setup i).kind ≠ .lobatto := fun i => by rw [(modal_sane (pair_pos i) (hm i)).2.1]; simp
  let W : Fin 2 → PyEuler.Prim := ![⟨1, 1, 1⟩, ⟨1, -1, 1⟩]
  have hW : ∀ i, Spec.PyEuler.Good (W i) := fun i => by fin_cases i <;> exact ⟨by norm_num [W], by norm_num [W]⟩
  let u : Fin 2 → Fin 1 → PyEuler.Vec := fun i _ => Spec.PyEuler.state (7 / 5) (W i)
  have hv : ∀ i x, field (setup i) (u i) x = Spec.PyEuler.state (7 / 5) (W i) := fun i x => by
    rw [field_eq (pair_pos i) (hb i), Fin.sum_univ_one, (basis_values (pair_pos i) (hb i) 0).2.2
      (modal_sane (pair_pos i) (hm i)).2.1]
    exact one_smul _ _
  obtain ⟨R, hR⟩ := exists_residual pair_pos (roePhysics (7 / 5)) hb none
  obtain ⟨s', hs⟩ : ∃ s', PyRK.march 1 id R [1 / 10] 0 ⟨0, u, []⟩ = some s' := ⟨_, rfl⟩
  refine ⟨setup, R, u, s', hR, fun x => ⟨hv 0 x, hv 1 x⟩, hs, ?_⟩
  refine symmetric_stays (pair_facing hb hb hk hk) (roe_mirrors (by norm_num)) (ends := none) (fun _ h => by cases h)
    (fun _ h => by cases h) hR 1 _ 0 (fun i x => ?_) hs ?_
  · simp only [hv, turned_apply]
    funext j
    fin_cases i <;> fin_cases j <;>
      norm_num [W, Fin.rev, Spec.PyEuler.state, Spec.PyEuler.mirrorState, Spec.PyEuler.energy] <;> rfl
  · have : s'.evals = [(0, u)] := by cases hs; rfl
    rw [this]
    intro e he
    obtain rfl := List.eq_of_mem_singleton he
    intro i
    simp only [hv]
    exact ⟨fun _ => ⟨_, hW i, rfl⟩, ⟨_, hW i, rfl⟩, ⟨_, hW i, rfl⟩⟩

/-- A step of density seen from both sides: Roe's flux to the right in one picture is the flux to the left in the other. -/
example : ∃ f : PyEuler.Vec, PyEuler.roe (7 / 5) (Spec.PyEuler.state (7 / 5) ⟨1, 1, 1⟩)
      (Spec.PyEuler.state (7 / 5) ⟨1 / 8, -1, 1 / 10⟩) = some f ∧
    (roePhysics (7 / 5)).upwind (turned (Spec.PyEuler.state (7 / 5) ⟨1 / 8, -1, 1 / 10⟩))
      (turned (Spec.PyEuler.state (7 / 5) ⟨1, 1, 1⟩)) = -(turned f) := by
  have hl : Spec.PyEuler.Good ⟨1, 1, 1⟩ := ⟨by norm_num, by norm_num⟩
  have hr : Spec.PyEuler.Good ⟨1 / 8, -1, 1 / 10⟩ := ⟨by norm_num, by norm_num⟩
  obtain ⟨f, hf, _⟩ := PyEuler.roe_state (γ := 7 / 5) (by norm_num) hl hr
  refine ⟨f, hf, ?_⟩
  rw [(roe_mirrors (γ := 7 / 5) (by norm_num)).upwind _ _ ⟨_, hl, rfl⟩ ⟨_, hr, rfl⟩]
  simp only [roePhysics, hf, Option.getD_some]

end MiniCFD.PyMirror
