import Verif.Lemmas.FRTwist

/-!
# C129: uniform flow on curved hexahedra

The flux reconstruction schemes differentiate the products of fluxes and metric terms.  For a uniform state this
leaves the derivatives of the metric terms, whose sum vanishes in the continuum; it vanishes at the solution points
when the metric terms are polynomials of the degree of the scheme.
-/

namespace MiniCFD.FR

open MiniCFD.Column MiniCFD.Shape MiniCFD.LocalHex Polynomial
open MiniCFD.Spec.FR (LineRule Conforming Uniform OnHexahedron metricDegree Sides)

variable {D : Type} {K N : Nat}

/-- **C129**, both schemes, with degree at least two on hexahedra with 8 nodes and at least four on those with 20, 26
or 27 nodes: a uniform state has no residual, on every conforming mesh and with every consistent solver and boundary
condition.  Missing: schemes of lower degree, for which it is false (`linear_drift`, `quadratic_drift`). -/
theorem uniform_partial {x w : Fin (N + 1) → ℝ} (hl : LineRule x w) {ph : Physics D K} {P : Part D K N}
    {c : Residual.Conditions Vec K} {t : ℝ} {σ : Sides P} (hc : Conforming x w P c σ) {d : D}
    {F : Matrix (Fin K) (Fin 3) ℝ} (hu : Uniform d F ph P c t) (p : Fin P.count) {g : Geometry} (hg : g.Hex)
    (ho : OnHexahedron x g (P.cells p)) (hN : metricDegree g.kind ≤ N) (r : Fin K) (q : Node N) :
    (∀ c_next, ∃ res, generalResidual x c_next ph P c t = some res ∧ entry res p.val r q = some 0) ∧
    ∃ res, lobattoResidual x ph P c t = some res ∧ entry res p.val r q = some 0 := by
  have h0 : 0 < N := by
    refine lt_of_lt_of_le ?_ hN
    unfold metricDegree
    split <;> omega
  have hz : -∑ i, F r i * defect x (P.cells p) q i = 0 := by
    simp [defect_zero hl.distinct hg ho hN]
  refine ⟨fun c_next => ?_, ?_⟩
  · obtain ⟨res, hres⟩ := (defined hl h0 ph P c t hc).1 c_next
    exact ⟨res, hres, by rw [uniform_entry hl (general_good hl h0 c_next) hc hu hres, hz]⟩
  · obtain ⟨res, hres⟩ := (defined hl h0 ph P c t hc).2.1
    exact ⟨res, hres, by rw [uniform_entry hl (lobatto_good hl h0) hc hu hres, hz]⟩

/-- **C129**, cells whose metric terms are constant (parallelepipeds): every degree is enough. -/
theorem parallelepiped_uniform {x w : Fin (N + 1) → ℝ} (hl : LineRule x w) (hN : 0 < N) {ph : Physics D K}
    {P : Part D K N} {c : Residual.Conditions Vec K} {t : ℝ} {σ : Sides P} (hc : Conforming x w P c σ) {d : D}
    {F : Matrix (Fin K) (Fin 3) ℝ} (hu : Uniform d F ph P c t) (p : Fin P.count) {A : Matrix (Fin 3) (Fin 3) ℝ}
    (hA : ∀ q, (P.cells p).assoc q = A) (r : Fin K) (q : Node N) :
    (∀ c_next, ∃ res, generalResidual x c_next ph P c t = some res ∧ entry res p.val r q = some 0) ∧
    ∃ res, lobattoResidual x ph P c t = some res ∧ entry res p.val r q = some 0 := by
  have hz : -∑ i, F r i * defect x (P.cells p) q i = 0 := by
    simp [defect_constant hl.distinct hN hA]
  refine ⟨fun c_next => ?_, ?_⟩
  · obtain ⟨res, hres⟩ := (defined hl hN ph P c t hc).1 c_next
    exact ⟨res, hres, by rw [uniform_entry hl (general_good hl hN c_next) hc hu hres, hz]⟩
  · obtain ⟨res, hres⟩ := (defined hl hN ph P c t hc).2.1
    exact ⟨res, hres, by rw [uniform_entry hl (lobatto_good hl hN) hc hu hres, hz]⟩

/-! ### Lower degrees -/

theorem channel_drift {x w : Fin (N + 1) → ℝ} (hl : LineRule x w) (hx : Apart x) (hN : 1 ≤ N) {e : Nat} (he : e ≠ 0)
    {g : Geometry} (h : Channel e g) {p : ℝ[X]} (hp : p.natDegree ≤ N)
    (hw : ∀ l, width e (x l) ^ 2 = p.eval (x l)) (t : ℝ) :
    (∀ c_next, ∃ res, generalResidual x c_next moving (alone x w (cellOn x g)) farField t = some res ∧
      entry res 0 (0 : Fin 1) (Fin.last N, (0 : Fin (N + 1)), (0 : Fin (N + 1)))
        = some (-(5 * ((derivative p).eval 1 - 3 / 2 * e)))) ∧
    ∃ res, lobattoResidual x moving (alone x w (cellOn x g)) farField t = some res ∧
      entry res 0 (0 : Fin 1) (Fin.last N, (0 : Fin (N + 1)), (0 : Fin (N + 1)))
        = some (-(5 * ((derivative p).eval 1 - 3 / 2 * e))) := by
  obtain ⟨σ, hc⟩ := alone_conforming hl (channel_resolved he hx h) (channel_columns hx h)
  have hu := cellOn_uniform x w g t
  have hz : -∑ i, five 0 i * defect x (cellOn x g) (Fin.last N, 0, 0) i
      = -(5 * ((derivative p).eval 1 - 3 / 2 * e)) := by
    rw [← channel_defect hx hl.distinct hl.last hN h hp hw]
    simp [Fin.sum_univ_three, five]
  refine ⟨fun c_next => ?_, ?_⟩
  · obtain ⟨res, hres⟩ := (defined hl hN moving _ _ t hc).1 c_next
    exact ⟨res, hres, by
      rw [← hz]; exact uniform_entry hl (general_good hl hN c_next) hc hu hres (0 : Fin 1) 0 _⟩
  · obtain ⟨res, hres⟩ := (defined hl hN moving _ _ t hc).2.1
    exact ⟨res, hres, by rw [← hz]; exact uniform_entry hl (lobatto_good hl hN) hc hu hres (0 : Fin 1) 0 _⟩

theorem apart2 : Apart (N := 1) ![-1, 1] where
  apart i j h := by fin_cases i <;> fin_cases j <;> first | exact absurd rfl h | norm_num
  inside i := by fin_cases i <;> norm_num

theorem line3 : LineRule (N := 2) ![-1, 0, 1] ![1 / 3, 4 / 3, 1 / 3] := by
  have h := lobatto_lines.2.1
  have e1 : ruleX Gauss.lobatto3 2 = ![-1, 0, 1] := by
    funext i; fin_cases i <;> rfl
  have e2 : ruleW Gauss.lobatto3 2 = ![1 / 3, 4 / 3, 1 / 3] := by
    funext i; fin_cases i <;> rfl
  rwa [e1, e2] at h

theorem apart3 : Apart (N := 2) ![-1, 0, 1] where
  apart i j h := by fin_cases i <;> fin_cases j <;> first | exact absurd rfl h | norm_num
  inside i := by fin_cases i <;> norm_num

/-- **C129 (refuted), degree one.**  In a truncated pyramid, a hexahedron with 8 nodes whose Jacobian is positive
everywhere, the uniform value 5 has a residual, for every correction function. -/
theorem linear_drift (t : ℝ) :
    OnHexahedron ![-1, 1] pyramid (cellOn (N := 1) ![-1, 1] pyramid) ∧
    (∃ σ, Conforming ![-1, 1] ![1, 1] (alone ![-1, 1] ![1, 1] (cellOn (N := 1) ![-1, 1] pyramid)) farField σ) ∧
    Uniform 5 five moving (alone ![-1, 1] ![1, 1] (cellOn (N := 1) ![-1, 1] pyramid)) farField t ∧
    (∀ c_next, ∃ res, generalResidual ![-1, 1] c_next moving
        (alone ![-1, 1] ![1, 1] (cellOn (N := 1) ![-1, 1] pyramid)) farField t = some res ∧
      entry res 0 (0 : Fin 1) ((1, 0, 0) : Node 1) = some (5 / 2)) ∧
    ∃ res, lobattoResidual ![-1, 1] moving
        (alone ![-1, 1] ![1, 1] (cellOn (N := 1) ![-1, 1] pyramid)) farField t = some res ∧
      entry res 0 (0 : Fin 1) ((1, 0, 0) : Node 1) = some (5 / 2) := by
  have hw : ∀ l : Fin 2, width 1 ((![-1, 1] : Fin 2 → ℝ) l) ^ 2
      = (C (5 / 4) + X : ℝ[X]).eval ((![-1, 1] : Fin 2 → ℝ) l) := by
    intro l
    fin_cases l <;> simp [width] <;> norm_num
  have h := channel_drift line2 apart2 (by norm_num) one_ne_zero pyramid_channel (by compute_degree) hw t
  have e : -(5 * ((derivative (C (5 / 4) + X : ℝ[X])).eval 1 - 3 / 2 * ((1 : Nat) : ℝ))) = 5 / 2 := by
    simp; norm_num
  rw [e] at h
  exact ⟨channel_on apart2 pyramid_channel,
    alone_conforming line2 (channel_resolved one_ne_zero apart2 pyramid_channel) (channel_columns apart2 pyramid_channel),
    cellOn_uniform _ _ _ t, h⟩

/-- **C129 (refuted), degree two.**  So it has in a nozzle with 27 nodes. -/
theorem quadratic_drift (t : ℝ) :
    OnHexahedron ![-1, 0, 1] nozzle (cellOn (N := 2) ![-1, 0, 1] nozzle) ∧
    (∃ σ, Conforming ![-1, 0, 1] ![1 / 3, 4 / 3, 1 / 3]
      (alone ![-1, 0, 1] ![1 / 3, 4 / 3, 1 / 3] (cellOn (N := 2) ![-1, 0, 1] nozzle)) farField σ) ∧
    Uniform 5 five moving (alone ![-1, 0, 1] ![1 / 3, 4 / 3, 1 / 3] (cellOn (N := 2) ![-1, 0, 1] nozzle)) farField t ∧
    (∀ c_next, ∃ res, generalResidual ![-1, 0, 1] c_next moving
        (alone ![-1, 0, 1] ![1 / 3, 4 / 3, 1 / 3] (cellOn (N := 2) ![-1, 0, 1] nozzle)) farField t = some res ∧
      entry res 0 (0 : Fin 1) ((2, 0, 0) : Node 2) = some (5 / 2)) ∧
    ∃ res, lobattoResidual ![-1, 0, 1] moving
        (alone ![-1, 0, 1] ![1 / 3, 4 / 3, 1 / 3] (cellOn (N := 2) ![-1, 0, 1] nozzle)) farField t = some res ∧
      entry res 0 (0 : Fin 1) ((2, 0, 0) : Node 2) = some (5 / 2) := by
  have hw : ∀ l : Fin 3, width 2 ((![-1, 0, 1] : Fin 3 → ℝ) l) ^ 2
      = (1 + C (5 / 4) * X ^ 2 : ℝ[X]).eval ((![-1, 0, 1] : Fin 3 → ℝ) l) := by
    intro l
    fin_cases l <;> simp [width] <;> norm_num
  have h := channel_drift line3 apart3 (by norm_num) two_ne_zero nozzle_channel (by compute_degree) hw t
  have e : -(5 * ((derivative (1 + C (5 / 4) * X ^ 2 : ℝ[X])).eval 1 - 3 / 2 * ((2 : Nat) : ℝ))) = 5 / 2 := by
    simp; norm_num
  rw [e] at h
  exact ⟨channel_on apart3 nozzle_channel,
    alone_conforming line3 (channel_resolved two_ne_zero apart3 nozzle_channel) (channel_columns apart3 nozzle_channel),
    cellOn_uniform _ _ _ t, h⟩

/-! ### Cases that meet the hypotheses -/

/-- With degree two the truncated pyramid has no residual. -/
example (c_next t : ℝ) (q : Node 2) : ∃ res, generalResidual ![-1, 0, 1] c_next moving
    (alone ![-1, 0, 1] ![1 / 3, 4 / 3, 1 / 3] (cellOn (N := 2) ![-1, 0, 1] pyramid)) farField t = some res ∧
      entry res 0 (0 : Fin 1) q = some 0 := by
  obtain ⟨σ, hc⟩ := alone_conforming line3 (channel_resolved one_ne_zero apart3 pyramid_channel)
    (channel_columns apart3 pyramid_channel)
  exact (uniform_partial line3 hc (cellOn_uniform _ _ _ t) (0 : Fin 1) pyramid_channel.hex
    (channel_on apart3 pyramid_channel) (le_refl _) 0 q).1 c_next

/-- The cube of the examples of C45 has constant metric terms. -/
example (c_next t : ℝ) (q : Node 1) : ∃ res, generalResidual ![-1, 1] c_next moving
    (alone ![-1, 1] ![1, 1] (cube 0 fun _ => 5)) farField t = some res ∧ entry res 0 (0 : Fin 1) q = some 0 := by
  obtain ⟨σ, hc⟩ := alone_conforming line2 (cube_resolved 0 fun _ => 5) fun ν d => by
    have : (fun i => (cube 0 fun _ => 5).assoc ν i d) = fun i => if i = d then 1 else 0 := by
      funext i
      simp [cube, Matrix.one_apply]
    rw [this, length_axis]
    norm_num
  exact (parallelepiped_uniform line2 (by norm_num) hc (alone_uniform _ _ (fun _ => rfl) (fun _ => rfl) t) (0 : Fin 1)
    (fun _ => rfl) 0 q).1 c_next

end MiniCFD.FR
