import Verif.Props.PyMirror
import Verif.Props.PyFR

/-! # C149: the flux reconstruction schemes of the Python code in a mirror -/

namespace MiniCFD.PyMirror
open MiniCFD.PyQuad MiniCFD.PyExpansion MiniCFD.PyDG MiniCFD.Spec.PyMirror Polynomial
open MiniCFD.Spec.Gauss (ExactTo)
open MiniCFD.PyFR (Correction reconstruction interpolates_exists continuousFlux)
open MiniCFD.Spec.PyPoly (IsPair)
open MiniCFD.Spec.PyFR (PolyMap Interpolates)
open MiniCFD.RK (Sys)

variable {p n : ℕ} {c c' : Coordinate} {w : ℝ} {V : Type*} [NormedAddCommGroup V] [NormedSpace ℝ V] {M : V →L[ℝ] V}
  {D : V → Prop} {ph ph' : Physics V}

/-- The nodes of nodal elements of one kind are images of each other. -/
theorem points_mirror (hc : c.xLeft < c.xRight) (ho : Opposite w c c') {s s' : Setup p} (h : Built c s) (h' : Built c' s')
    (hm : s.kind ≠ .modal) (hk : s'.kind = s.kind) (j : Fin (p + 1)) : ∃ i, s'.points j = w - s.points i := by
  have hc' : c'.xLeft < c'.xRight := by rw [ho.left, ho.right]; linarith
  obtain ⟨i, hi⟩ : ∃ i, s'.nodes j = -s.nodes i := by
    cases h with
    | modal rule exact h => exact absurd (modal_sane hc h).2.1 hm
    | uniform rule exact h =>
      obtain ⟨_, _, k1, _, _, hn, _⟩ := lagrange_sane (by simp) hc h
      rw [k1] at hk
      have hn' : s'.nodes = uniformRoots p := by
        cases h' with
        | uniform _ _ h' => exact (lagrange_sane (by simp) hc' h').2.2.2.2.2.1
        | legendreRoots _ _ h' => rw [(lagrange_sane (by simp) hc' h').2.2.1] at hk; cases hk
        | modal _ _ h' => rw [(modal_sane hc' h').2.1] at hk; cases hk
        | lobatto h' =>
          obtain ⟨_, _, h'⟩ := lobatto_cases h'
          rw [(lagrange_sane (by simp) hc' h').2.2.1] at hk; cases hk
      refine ⟨j.rev, ?_⟩
      rw [hn, hn']
      have hj : ((j.rev : Fin (p + 1)) : ℝ) = p - (j : ℕ) := by
        rw [Fin.val_rev, Nat.cast_sub (by omega)]; push_cast; ring
      simp only [uniformRoots, Integrator.linspace]
      rw [hj]
      rcases Nat.eq_zero_or_pos p with rfl | h0
      · have : (j : ℕ) = 0 := by omega
        simp [this]
      · have : (p : ℝ) ≠ 0 := by positivity
        field_simp
        ring
    | legendreRoots rule exact h =>
      obtain ⟨_, _, k1, _, _, hn, _⟩ := lagrange_sane (by simp) hc h
      rw [k1] at hk
      obtain ⟨rule', exact', hn'⟩ : ∃ rule' : Rule p, ExactTo rule'.apply (2 * p + 1) ∧ s'.nodes = rule'.x := by
        cases h' with
        | uniform _ _ h' => rw [(lagrange_sane (by simp) hc' h').2.2.1] at hk; cases hk
        | legendreRoots r e h' => exact ⟨r, e, (lagrange_sane (by simp) hc' h').2.2.2.2.2.1⟩
        | modal _ _ h' => rw [(modal_sane hc' h').2.1] at hk; cases hk
        | lobatto h' =>
          obtain ⟨_, _, h'⟩ := lobatto_cases h'
          rw [(lagrange_sane (by simp) hc' h').2.2.1] at hk; cases hk
      rw [hn, hn']
      -- otherwise a function that sees only this point would tell the rules apart
      by_contra hne
      push Not at hne
      have := gauss_same exact' (reflect_exact exact) fun x => if x = rule'.x j then (1 : ℝ) else 0
      rw [Finset.sum_eq_single j (fun i _ hij => by
          rw [if_neg fun e => hij (gauss_injective exact' e), smul_zero]) (by simp),
        Finset.sum_eq_zero (fun i _ => by
          rw [if_neg fun e => hne i (by simpa [reflect] using e.symm), smul_zero])] at this
      rw [if_pos rfl, smul_eq_mul, mul_one] at this
      exact (roots_of_legendre exact' j).2.ne' this
    | lobatto h =>
      obtain ⟨rule, hr, h⟩ := lobatto_cases h
      obtain ⟨_, _, k1, _, _, hn, _⟩ := lagrange_sane (by simp) hc h
      rw [k1] at hk
      have hn' : s'.nodes = rule.x := by
        cases h' with
        | uniform _ _ h' => rw [(lagrange_sane (by simp) hc' h').2.2.1] at hk; cases hk
        | legendreRoots _ _ h' => rw [(lagrange_sane (by simp) hc' h').2.2.1] at hk; cases hk
        | modal _ _ h' => rw [(modal_sane hc' h').2.1] at hk; cases hk
        | lobatto h' =>
          obtain ⟨rule', hr', h'⟩ := lobatto_cases h'
          rw [hr] at hr'; cases hr'
          exact (lagrange_sane (by simp) hc' h').2.2.2.2.2.1
      refine ⟨j.rev, ?_⟩
      rw [hn, hn', (lobatto_sound hr).2.2.1, neg_neg]
  refine ⟨i, ?_⟩
  obtain ⟨_, _, _, _, hx, _⟩ := c.eq_linear
  obtain ⟨_, _, _, _, hx', _⟩ := c'.eq_linear
  simp only [Setup.points, samplePoints, (h.sane hc).2, (h'.sane hc').2, hx, hx', hi, ho.left, ho.right]
  ring

/-- **One element** of a scheme of flux reconstruction. -/
theorem fr_cell_mirror (hp : Mirrors M D ph ph') (hc : c.xLeft < c.xRight) {K K' : Cell p V} (h : Pair M D w c c' K K')
    (hm : K.setup.kind ≠ .modal) (hk : K'.setup.kind = K.setup.kind)
    (hD : ∀ j, D (K.setup.value K.state (K.setup.points j))) {g : Correction} (hg : IsPair (p + 1) g.value g.gradient)
    {f f' : FaceData V} (hl : f'.leftFlux = -(M f.rightFlux)) (hr : f'.rightFlux = -(M f.leftFlux))
    {r r' : Fin (p + 1) → V} (hres : PyFR.cellResidual ph (some g) K f = some r)
    (hres' : PyFR.cellResidual ph' (some g) K' f' = some r') : Image M w (field K.setup r) (field K'.setup r') := by
  have hc' := h.pos hc
  have hI := interpolates_exists hc h.built hm (dgFluxAt ph K)
  set I : ℝ → V := fun x => ∑ j, K.setup.basisValues x j • dgFluxAt ph K (K.setup.points j) with hIdef
  have hI' : Interpolates p K'.setup.points (dgFluxAt ph' K') fun x => -(M (I (w - x))) := by
    constructor
    · choose q hq using fun k => (basis_values hc h.built k).1
      have hdeg : ∀ k, ((q k).comp (C w - X)).natDegree ≤ p := fun k => by
        refine natDegree_comp_le.trans ?_
        have : (C w - X : ℝ[X]).natDegree ≤ 1 := (natDegree_sub_le _ _).trans (max_le (by simp) natDegree_X_le)
        exact (Nat.mul_le_mul_left _ this).trans (by rw [mul_one]; exact (hq k).1)
      have e : (fun x => -(M (I (w - x)))) =
          fun x => ∑ k, ((q k).comp (C w - X)).eval x • -(M (dgFluxAt ph K (K.setup.points k))) := by
        funext x
        simp only [hIdef, map_sum, map_smul, (hq _).2, ← Finset.sum_neg_distrib, smul_neg]
        simp
      rw [e]
      exact PyFR.polyMap_comb _ hdeg _
    · intro j
      obtain ⟨i, hi⟩ := points_mirror hc h.opposite h.built h.built' hm hk j
      have e : w - K'.setup.points j = K.setup.points i := by rw [hi, sub_sub_cancel]
      rw [e, hI.values, h.flux hp hc (by rw [e]; exact hD i), e]
  obtain ⟨r1, h1, hd, _⟩ := reconstruction hc ph K h.built hm h.reached hg f hI
  obtain ⟨r2, h2, hd', _⟩ := reconstruction hc' ph' K' h.built' (by rw [hk]; exact hm) h.reached' hg f' hI'
  rw [hres] at h1; cases h1
  rw [hres'] at h2; cases h2
  have el : dgFluxAt ph' K' c'.xLeft = -(M (dgFluxAt ph K c.xRight)) := by
    have e : w - c'.xLeft = c.xRight := by rw [h.opposite.left, sub_sub_cancel]
    rw [h.flux hp hc (by rw [e]; exact h.right), e]
  have er : dgFluxAt ph' K' c'.xRight = -(M (dgFluxAt ph K c.xLeft)) := by
    have e : w - c'.xRight = c.xLeft := by rw [h.opposite.right, sub_sub_cancel]
    rw [h.flux hp hc (by rw [e]; exact h.left), e]
  have hloc : ∀ x, c'.globalToLocal x = -c.globalToLocal (w - x) := by
    intro x
    obtain ⟨_, _, _, _, _, hx⟩ := c.eq_linear
    obtain ⟨_, _, _, _, _, hx'⟩ := c'.eq_linear
    have : c.xRight - c.xLeft ≠ 0 := by linarith
    rw [hx, hx', h.opposite.left, h.opposite.right]
    have e : w - c.xLeft - (w - c.xRight) = c.xRight - c.xLeft := by ring
    rw [e]
    field_simp
    ring
  -- the reconstructed flux is the image of the other one
  have flux : continuousFlux c' g (dgFluxAt ph' K') (fun x => -(M (I (w - x)))) f'.leftFlux f'.rightFlux =
      fun x => -(M (continuousFlux c g (dgFluxAt ph K) I f.leftFlux f.rightFlux (w - x))) := by
    funext x
    have m1 : (g.value (c'.globalToLocal x)).1 = (g.value (c.globalToLocal (w - x))).2 := by
      rw [hg.mirror, hloc, neg_neg]
    have m2 : (g.value (c'.globalToLocal x)).2 = (g.value (c.globalToLocal (w - x))).1 := by
      rw [hg.mirror (c.globalToLocal (w - x)), hloc]
    simp only [continuousFlux, m1, m2, hl, hr, el, er, map_add, map_smul, map_sub]
    module
  intro x
  have d1 := hd' x
  rw [flux] at d1
  have d2 : HasDerivAt (fun y : ℝ => w - y) (-1) x := by simpa using (hasDerivAt_id x).const_sub w
  have d3 : HasDerivAt (fun y => continuousFlux c g (dgFluxAt ph K) I f.leftFlux f.rightFlux (w - y))
      ((-1 : ℝ) • (-field K.setup r (w - x))) x := (hd (w - x)).scomp x d2
  have d4 := (M.hasFDerivAt.comp_hasDerivAt x d3).neg
  have := d1.unique d4
  rw [neg_inj] at this
  rw [this]
  simp

/-- **C149.**  The same for flux reconstruction, with every pair of correction functions that are images of each other. -/
theorem fr_scheme_mirror (hp : Mirrors M D ph ph') {co co' : Fin (n + 2) → Coordinate}
    (hc : ∀ i, (co i).xLeft < (co i).xRight) {g g' : Grid p n V} (h : PairGrid M D w co co' g g') (i : Fin (n + 2))
    (hm : (g.cells i).setup.kind ≠ .modal) (hk : (g'.cells i.rev).setup.kind = (g.cells i).setup.kind)
    (hD : ∀ j, D ((g.cells i).setup.value (g.cells i).state ((g.cells i).setup.points j))) {k : Correction}
    (hg : IsPair (p + 1) k.value k.gradient) {r r' : Fin (p + 1) → V} (hres : PyFR.residual ph (some k) g i = some r)
    (hres' : PyFR.residual ph' (some k) g' i.rev = some r') :
    Image M w (field (g.cells i).setup r) (field (g'.cells i.rev).setup r') := by
  obtain ⟨e1, e2⟩ := face_mirror hp hc h i
  refine fr_cell_mirror hp (hc i) (h.pair i) hm hk hD hg ?_ ?_ hres hres' <;> simp only [faceData, e1, e2]

/-- What `get_residual_column` returns for the coefficients `u`. -/
def IsResidualFR (ph : Physics V) (k : Correction) (setup : Fin (n + 2) → Setup p) (ends : Option (V × V))
    (R : ℝ → (Fin (n + 2) → Fin (p + 1) → V) → Fin (n + 2) → Fin (p + 1) → V) : Prop :=
  ∀ t u i, PyFR.residual ph (some k) (gridOf setup ends u) i = some (R t u i)

/-- **C149.**  Runs of flux reconstruction. -/
theorem fr_run_mirror {co co' : Fin (n + 2) → Coordinate} {setup setup' : Fin (n + 2) → Setup p}
    (hf : Facing w co co' setup setup') (hm : ∀ i, (setup i).kind ≠ .modal)
    (hk : ∀ i, (setup' (Fin.rev i)).kind = (setup i).kind) (hp : Mirrors M D ph ph') {k : Correction}
    (hg : IsPair (p + 1) k.value k.gradient) {ends : Option (V × V)} (he : ∀ u, ends = some u → D u.1 ∧ D u.2)
    {R R' : ℝ → (Fin (n + 2) → Fin (p + 1) → V) → Fin (n + 2) → Fin (p + 1) → V} (hR : IsResidualFR ph k setup ends R)
    (hR' : IsResidualFR ph' k setup' (ends.map fun u => (M u.2, M u.1)) R') (order : ℕ) (dts : List ℝ) (t : ℝ)
    {s s' q q' : Sys ℝ (Fin (n + 2) → Fin (p + 1) → V)} (h : Images M w setup setup' s.sol q.sol)
    (h1 : PyRK.march order id R dts t s = some s') (h2 : PyRK.march order id R' dts t q = some q')
    (hD : ∀ e ∈ s'.evals, Within D co setup e.2 ∧ ∀ i j, D (field (setup i) (e.2 i) ((setup i).points j))) :
    Images M w setup setup' s'.sol q'.sol := by
  refine march_relation (S := Images M w setup setup') (G := fun u => Within D co setup u ∧ ∀ i j,
    D (field (setup i) (u i) ((setup i).points j))) (images_add hf) (images_smul hf) ?_ order dts t h h1 h2 hD
  intro t u u' hG hu i
  exact fr_scheme_mirror hp hf.pos (pairGrid_of hf he hG.1 hu) i (hm i) (hk i) (hG.2 i) hg (hR t u i) (hR' t u' i.rev)

/-- **C149.**  What starts as its own image remains it with flux reconstruction too. -/
theorem fr_symmetric_stays {co : Fin (n + 2) → Coordinate} {setup : Fin (n + 2) → Setup p}
    (hf : Facing w co co setup setup) (hm : ∀ i, (setup i).kind ≠ .modal)
    (hk : ∀ i, (setup (Fin.rev i)).kind = (setup i).kind) (hp : Mirrors M D ph ph) {k : Correction}
    (hg : IsPair (p + 1) k.value k.gradient) {ends : Option (V × V)} (he : ∀ u, ends = some u → D u.1 ∧ D u.2)
    (hs : ∀ u, ends = some u → u = (M u.2, M u.1))
    {R : ℝ → (Fin (n + 2) → Fin (p + 1) → V) → Fin (n + 2) → Fin (p + 1) → V} (hR : IsResidualFR ph k setup ends R)
    (order : ℕ) (dts : List ℝ) (t : ℝ) {s s' : Sys ℝ (Fin (n + 2) → Fin (p + 1) → V)}
    (h : Images M w setup setup s.sol s.sol) (h1 : PyRK.march order id R dts t s = some s')
    (hD : ∀ e ∈ s'.evals, Within D co setup e.2 ∧ ∀ i j, D (field (setup i) (e.2 i) ((setup i).points j))) :
    Images M w setup setup s'.sol s'.sol := by
  refine fr_run_mirror hf hm hk hp hg he hR ?_ order dts t h h1 h1 hD
  have : (ends.map fun u => (M u.2, M u.1)) = ends := by
    cases ends with
    | none => rfl
    | some u => exact congrArg some (hs u rfl).symm
  rw [this]; exact hR

/-! ### Concrete cases -/

/-- Advection of `x` to the right in one picture, of `2 - x` to the left in the other one, on uniform nodes with the
correction functions of Vincent. -/
example : ∃ (setup : Fin 2 → Setup 1) (k : Correction) (R R' : ℝ → (Fin 2 → Fin 2 → ℝ) → Fin 2 → Fin 2 → ℝ)
    (u u' : Fin 2 → Fin 2 → ℝ) (s s' : Sys ℝ (Fin 2 → Fin 2 → ℝ)),
    IsResidualFR (PyEnergy.physics (PyScalar.linearSolver 1 0)) k setup none R ∧
    IsResidualFR (PyEnergy.physics (PyScalar.linearSolver (-1) 0)) k setup none R' ∧
    (∀ i x, field (setup i) (u i) x = x) ∧ (∀ i x, field (setup i) (u' i) x = 2 - x) ∧
    PyRK.march 2 id R [1 / 8, 1 / 4] 0 ⟨0, u, []⟩ = some s ∧ PyRK.march 2 id R' [1 / 8, 1 / 4] 0 ⟨0, u', []⟩ = some s' ∧
    ∀ i x, field (setup i.rev) (s'.sol i.rev) x = field (setup i) (s.sol i) (2 - x) := by
  choose setup he using fun i => (constructors (pair_pos i) gauss2_exact).1
  have hb : ∀ i, Built (pair i) (setup i) := fun i => .uniform _ gauss2_exact (he i)
  have hkind : ∀ i, (setup i).kind = .uniform := fun i => (lagrange_sane (by simp) (pair_pos i) (he i)).2.2.1
  obtain ⟨v, hv⟩ : ∃ v, PyPoly.vincent 2 PyPoly.muLobatto = some v := ⟨_, rfl⟩
  have hg : IsPair 2 (Correction.vincent v).value (Correction.vincent v).gradient :=
    PyPoly.vincent_pair_partial hv (.inl le_rfl)
  have exists_fr : ∀ ph : Physics ℝ, ∃ R, IsResidualFR ph (.vincent v) setup none R := by
    intro ph
    choose r hr _ using fun (u : Fin 2 → Fin 2 → ℝ) i => reconstruction (pair_pos i) ph ((gridOf setup none u).cells i) (hb i)
      (by show (setup i).kind ≠ _; rw [hkind]; simp) (.coeff _ rfl) hg (faceData ph (gridOf setup none u) i)
      (interpolates_exists (pair_pos i) (hb i) (by rw [hkind]; simp) _)
    exact ⟨fun _ u => r u, fun _ u i => hr u i⟩
  obtain ⟨R, hR⟩ := exists_fr (PyEnergy.physics (PyScalar.linearSolver 1 0))
  obtain ⟨R', hR'⟩ := exists_fr (PyEnergy.physics (PyScalar.linearSolver (-1) 0))
  choose u hu _ using fun i => exists_coeff (pair_pos i) (hb i) (X : ℝ[X]) natDegree_X_le
  choose u' hu' _ using fun i => exists_coeff (pair_pos i) (hb i) (C 2 - X : ℝ[X])
    ((natDegree_sub_le _ _).trans (max_le (by simp) natDegree_X_le))
  have hv : ∀ i x, field (setup i) (u i) x = x := fun i x => by
    have := field_eq (pair_pos i) (hb i) (u i) x
    simp only [smul_eq_mul, mul_comm _ (u i _), ← hu] at this
    rw [this]; simp
  have hv' : ∀ i x, field (setup i) (u' i) x = 2 - x := fun i x => by
    have := field_eq (pair_pos i) (hb i) (u' i) x
    simp only [smul_eq_mul, mul_comm _ (u' i _), ← hu'] at this
    rw [this]; simp
  obtain ⟨s, hs⟩ : ∃ s, PyRK.march 2 id R [1 / 8, 1 / 4] 0 ⟨0, u, []⟩ = some s := ⟨_, rfl⟩
  obtain ⟨s', hs'⟩ : ∃ s, PyRK.march 2 id R' [1 / 8, 1 / 4] 0 ⟨0, u', []⟩ = some s := ⟨_, rfl⟩
  refine ⟨setup, _, R, R', u, u', s, s', hR, hR', hv, hv', hs, hs', ?_⟩
  have hl : ∀ i, (setup i).kind ≠ .lobatto := fun i => by rw [hkind]; simp
  exact fr_run_mirror (pair_facing hb hb hl hl) (fun i => by rw [hkind]; simp) (fun i => by rw [hkind, hkind])
    (linear_mirrors 1 0) hg (ends := none) (fun _ h => by cases h) hR hR' 2 _ 0 (fun i x => by simp only [hv, hv']; simp) hs hs'
    (fun _ _ => ⟨fun _ => ⟨fun _ => trivial, trivial, trivial⟩, fun _ _ => trivial⟩)

end MiniCFD.PyMirror
