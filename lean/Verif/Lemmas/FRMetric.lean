import Verif.Lemmas.FRUniform

/-! # Metric terms of hexahedra are polynomials -/

namespace MiniCFD.FR

open MiniCFD.Shape MiniCFD.Cell MiniCFD.Spec.Shape MiniCFD.LocalHex MiniCFD.Spec.LocalHex Polynomial
open MiniCFD.Spec.FR (metricDegree OnHexahedron)

/-! ### Linear and quadratic functions -/

/-- Determined by its values at 0 and 1. -/
def Linear (f : ℝ → ℝ) : Prop := ∀ t, f t = f 0 + t * (f 1 - f 0)

/-- Determined by its values at -1, 0 and 1. -/
def Quadratic (f : ℝ → ℝ) : Prop := ∀ t, f t = f 0 + t * ((f 1 - f (-1)) / 2) + t * t * ((f 1 + f (-1)) / 2 - f 0)

theorem Linear.poly {f : ℝ → ℝ} (h : Linear f) : ∃ p : ℝ[X], p.natDegree ≤ 1 ∧ ∀ t, f t = p.eval t :=
  ⟨C (f 0) + X * C (f 1 - f 0), by compute_degree, fun t => by rw [h t]; simp⟩

theorem Quadratic.poly {f : ℝ → ℝ} (h : Quadratic f) : ∃ p : ℝ[X], p.natDegree ≤ 2 ∧ ∀ t, f t = p.eval t :=
  ⟨C (f 0) + X * C ((f 1 - f (-1)) / 2) + X * X * C ((f 1 + f (-1)) / 2 - f 0), by compute_degree,
    fun t => by rw [h t]; simp; ring⟩

theorem Linear.sum {n : Nat} {f : Fin n → ℝ → ℝ} (h : ∀ i, Linear (f i)) (a : Fin n → ℝ) :
    Linear fun t => ∑ i, f i t * a i := by
  intro t
  dsimp only
  rw [← Finset.sum_sub_distrib, Finset.mul_sum, ← Finset.sum_add_distrib]
  exact Finset.sum_congr rfl fun i _ => by rw [h i t]; ring

theorem Quadratic.sum {n : Nat} {f : Fin n → ℝ → ℝ} (h : ∀ i, Quadratic (f i)) (a : Fin n → ℝ) :
    Quadratic fun t => ∑ i, f i t * a i := by
  intro t
  dsimp only
  rw [← Finset.sum_sub_distrib, ← Finset.sum_add_distrib, Finset.sum_div, Finset.sum_div, ← Finset.sum_sub_distrib,
    Finset.mul_sum, Finset.mul_sum, ← Finset.sum_add_distrib, ← Finset.sum_add_distrib]
  exact Finset.sum_congr rfl fun i _ => by rw [h i t]; ring

theorem Linear.quadratic {f : ℝ → ℝ} (h : Linear f) : Quadratic f := fun t => by
  have h1 := h t
  have h2 := h (-1)
  rw [h1, h2]
  ring

/-! ### Shape functions -/

/-- Along every line parallel to an axis. -/
def Along (Q : (ℝ → ℝ) → Prop) {n : Nat} (G : Point ℝ 3 → Fin n → Point ℝ 3) : Prop :=
  ∀ (p : Point ℝ 3) (a : Fin 3) (i : Fin n) (b : Fin 3), Q fun t => G (Function.update p a t) i b

theorem along8 : Along Linear (hexahedron8 ℝ).grads := by
  intro p a i b t
  change cornerGrad _ _ b = cornerGrad _ _ b + t * (cornerGrad _ _ b - cornerGrad _ _ b)
  generalize (embed (hex8Nodes i) : Point ℝ 3) = c
  fin_cases a <;> fin_cases b <;> simp [cornerGrad, Function.update] <;> ring

theorem reduce_quadratic {m n : Nat} {w : Fin m → Fin n → ℝ} {new : ℝ → Fin m → Point ℝ 3}
    {old : ℝ → Fin n → Point ℝ 3} (b : Fin 3) (h1 : ∀ j, Quadratic fun t => new t j b)
    (h2 : ∀ i, Quadratic fun t => old t i b) (i : Fin n) :
    Quadratic fun t => reduce w (new t) (old t) i b := by
  unfold reduce
  generalize List.finRange m = l
  induction l generalizing old with
  | nil => exact h2 i
  | cons j l ih =>
    simp only [List.foldl_cons]
    refine ih (old := fun t a => old t a - w j a • new t j) fun i t => ?_
    have e1 := h1 j t
    have e2 := h2 i t
    dsimp only at e1 e2 ⊢
    simp only [Pi.sub_apply, Pi.smul_apply, smul_eq_mul]
    rw [e1, e2]
    ring

theorem enrich_quadratic {n m : Nat} {e : Element ℝ 3 n} {nodes : Fin m → Point ℚ 3}
    {new : Point ℝ 3 → Fin m → ℝ} {newGrads : Point ℝ 3 → Fin m → Point ℝ 3} (h1 : Along Quadratic e.grads)
    (h2 : Along Quadratic newGrads) : Along Quadratic (enrich e nodes new newGrads).grads := by
  intro p a i b
  refine Fin.addCases (fun i => ?_) (fun i => ?_) i
  · simp only [enrich, Fin.append_left]
    exact reduce_quadratic b (fun j => h2 p a j b) (fun i => h1 p a i b) i
  · simp only [enrich, Fin.append_right]
    exact h2 p a i b

theorem edge_quadratic (c p : Point ℝ 3) (a b : Fin 3) :
    (Quadratic fun t => edgeXGrad c (Function.update p a t) b) ∧
    (Quadratic fun t => edgeYGrad c (Function.update p a t) b) ∧
    (Quadratic fun t => edgeZGrad c (Function.update p a t) b) := by
  refine ⟨fun t => ?_, fun t => ?_, fun t => ?_⟩ <;> fin_cases a <;> fin_cases b <;>
    simp [edgeXGrad, edgeYGrad, edgeZGrad, Function.update] <;> ring

theorem face_quadratic (c p : Point ℝ 3) (a b : Fin 3) :
    (Quadratic fun t => faceXGrad c (Function.update p a t) b) ∧
    (Quadratic fun t => faceYGrad c (Function.update p a t) b) ∧
    (Quadratic fun t => faceZGrad c (Function.update p a t) b) := by
  refine ⟨fun t => ?_, fun t => ?_, fun t => ?_⟩ <;> fin_cases a <;> fin_cases b <;>
    simp [faceXGrad, faceYGrad, faceZGrad, Function.update] <;> ring

theorem along20 : Along Quadratic (hexahedron20 ℝ).grads := by
  refine enrich_quadratic (fun p a i b => (along8 p a i b).quadratic) fun p a i b => ?_
  fin_cases i <;>
    first
    | exact (edge_quadratic _ p a b).1
    | exact (edge_quadratic _ p a b).2.1
    | exact (edge_quadratic _ p a b).2.2

theorem along26 : Along Quadratic (hexahedron26 ℝ).grads := by
  refine enrich_quadratic along20 fun p a i b => ?_
  fin_cases i <;>
    first
    | exact (face_quadratic _ p a b).1
    | exact (face_quadratic _ p a b).2.1
    | exact (face_quadratic _ p a b).2.2

theorem along27 : Along Quadratic (hexahedron27 ℝ).grads := by
  intro p a i b t
  have h1 : ∀ (c : ℚ) (t : ℝ), hexFactor c t = hexFactor c 0 + t * ((hexFactor c 1 - hexFactor c (-1)) / 2)
      + t * t * ((hexFactor c 1 + hexFactor c (-1)) / 2 - hexFactor c 0) := by
    intro c t; unfold hexFactor; split_ifs <;> ring
  have h2 : ∀ (c : ℚ) (t : ℝ), hexGradFactor c t
      = hexGradFactor c 0 + t * ((hexGradFactor c 1 - hexGradFactor c (-1)) / 2)
      + t * t * ((hexGradFactor c 1 + hexGradFactor c (-1)) / 2 - hexGradFactor c 0) := by
    intro c t; unfold hexGradFactor; split_ifs <;> ring
  have e1 := fun c => h1 c t
  have e2 := fun c => h2 c t
  fin_cases a <;> fin_cases b <;> simp [hexahedron27, Function.update] <;>
    (first | rw [e1] | rw [e2]) <;> ring

/-! ### The map of a hexahedron -/

theorem jac_poly {g : Geometry} (hg : g.Hex) (p : Point ℝ 3) (a b c : Fin 3) :
    ∃ P : ℝ[X], 2 * P.natDegree ≤ metricDegree g.kind ∧ ∀ t, g.jac (Function.update p a t) b c = P.eval t := by
  have lin : Along Linear g.element.grads → ∃ P : ℝ[X], P.natDegree ≤ 1 ∧
      ∀ t, g.jac (Function.update p a t) b c = P.eval t :=
    fun h => (Linear.sum (fun i => h p a i b) fun i => g.coords i c).poly
  have quad : Along Quadratic g.element.grads → ∃ P : ℝ[X], P.natDegree ≤ 2 ∧
      ∀ t, g.jac (Function.update p a t) b c = P.eval t :=
    fun h => (Quadratic.sum (fun i => h p a i b) fun i => g.coords i c).poly
  obtain ⟨k, e, coords⟩ := g
  obtain ⟨h1, h2⟩ := hg
  dsimp only at *
  cases k <;> simp only [Kind.Hexahedral] at h2 <;>
    (have h3 := Option.some.inj h1; subst h3)
  · obtain ⟨P, h, h'⟩ := lin along8
    exact ⟨P, by simp only [metricDegree]; omega, h'⟩
  · obtain ⟨P, h, h'⟩ := quad along20
    exact ⟨P, by simp only [metricDegree]; omega, h'⟩
  · obtain ⟨P, h, h'⟩ := quad along26
    exact ⟨P, by simp only [metricDegree]; omega, h'⟩
  · obtain ⟨P, h, h'⟩ := quad along27
    exact ⟨P, by simp only [metricDegree]; omega, h'⟩

theorem cofactor_poly {g : Geometry} (hg : g.Hex) (p : Point ℝ 3) (a i : Fin 3) :
    ∃ P : ℝ[X], P.natDegree ≤ metricDegree g.kind ∧
      ∀ t, cofactor (g.jac (Function.update p a t)) i a = P.eval t := by
  obtain ⟨P1, d1, e1⟩ := jac_poly hg p a (a + 1) (i + 1)
  obtain ⟨P2, d2, e2⟩ := jac_poly hg p a (a + 2) (i + 2)
  obtain ⟨P3, d3, e3⟩ := jac_poly hg p a (a + 1) (i + 2)
  obtain ⟨P4, d4, e4⟩ := jac_poly hg p a (a + 2) (i + 1)
  refine ⟨P1 * P2 - P3 * P4, (natDegree_sub_le _ _).trans (max_le ?_ ?_), fun t => ?_⟩
  · exact natDegree_mul_le.trans (by omega)
  · exact natDegree_mul_le.trans (by omega)
  · rw [cofactor, e1, e2, e3, e4]
    simp

/-- The metric terms have no divergence. -/
theorem piola {g : Geometry} (hg : g.Hex) {p : Point ℝ 3} (h0 : (g.jac p).det ≠ 0) :
    ∃ δ : Fin 3 → Fin 3 → ℝ, (∀ i a, HasPartial (fun q => cofactor (g.jac q) i a) a (δ i a) p) ∧
      ∀ i, ∑ a, δ i a = 0 := by
  obtain ⟨Dg, Dh, dJ, e1, -, -, -, -, hJ⟩ := Geometry.data hg h0
  have hs : ∀ a b c, dJ a b c = dJ b a c := by
    intro a b c
    obtain ⟨h, -, rfl⟩ := Option.map_eq_some_iff.1 e1
    fin_cases a <;> fin_cases b <;> rfl
  refine ⟨fun c a => dJ a (a + 1) (c + 1) * g.jac p (a + 2) (c + 2) + g.jac p (a + 1) (c + 1) * dJ a (a + 2) (c + 2)
        - (dJ a (a + 1) (c + 2) * g.jac p (a + 2) (c + 1) + g.jac p (a + 1) (c + 2) * dJ a (a + 2) (c + 1)),
    fun c a => ?_, fun c => ?_⟩
  · have := HasDerivAt.sub (HasDerivAt.mul (hJ (a + 1) a (c + 1)) (hJ (a + 2) a (c + 2)))
      (HasDerivAt.mul (hJ (a + 1) a (c + 2)) (hJ (a + 2) a (c + 1)))
    simp only [Function.update_eq_self] at this
    exact this
  · simp only [Fin.sum_univ_three, Fin.isValue, Fin.reduceAdd, zero_add]
    rw [hs 1 0, hs 2 0, hs 2 1, hs 1 0, hs 2 0, hs 2 1]
    ring

variable {D : Type} {K N : Nat}

theorem defect_comm (x : Fin (N + 1) → ℝ) (c : Cell D K N) (q : Node N) (i : Fin 3) :
    defect x c q i = ∑ d, ∑ k, c.assoc k i d * basisGradient x q k d := Finset.sum_comm

theorem assoc_cofactor {x : Fin (N + 1) → ℝ} {g : Geometry} {c : Cell D K N} (hc : OnHexahedron x g c) (q : Node N) :
    (g.jac (Spec.FR.loc x q)).det ≠ 0 ∧ ∀ i d, c.assoc q i d = cofactor (g.jac (Spec.FR.loc x q)) i d := by
  obtain ⟨h, h1, h2⟩ := Option.map_eq_some_iff.1 (hc.2 q)
  obtain ⟨h0, -, h3, -⟩ := cache_det h1
  exact ⟨h0, fun i d => by rw [← h2, h3, assoc_eq h0]⟩

/-- With enough points the discrete divergence of the metric terms vanishes. -/
theorem defect_zero {x : Fin (N + 1) → ℝ} (hx : Function.Injective x) {g : Geometry} (hg : g.Hex) {c : Cell D K N}
    (hc : OnHexahedron x g c) (hN : metricDegree g.kind ≤ N) (q : Node N) (i : Fin 3) : defect x c q i = 0 := by
  have h1 : 1 ≤ N := by
    refine le_trans ?_ hN
    unfold metricDegree
    split <;> omega
  obtain ⟨δ, hδ, hs⟩ := piola hg (assoc_cofactor hc q).1
  rw [defect_comm, ← hs i]
  refine Finset.sum_congr rfl fun a _ => ?_
  obtain ⟨P, d, e⟩ := cofactor_poly hg (Spec.FR.loc x q) a i
  rw [line_exact hx h1 (d.trans hN) (fun k => c.assoc k i a) q a fun l => by
    rw [(assoc_cofactor hc _).2, loc_setAt, e]]
  have h2 : HasDerivAt (fun t => cofactor (g.jac (Function.update (Spec.FR.loc x q) a t)) i a) (δ i a)
    (Spec.FR.loc x q a) := hδ i a
  simp only [e] at h2
  exact (P.hasDerivAt _).unique h2

/-- So it does with any number of points where the metric terms are constant. -/
theorem defect_constant {x : Fin (N + 1) → ℝ} (hx : Function.Injective x) (hN : 1 ≤ N) {c : Cell D K N}
    {A : Matrix (Fin 3) (Fin 3) ℝ} (hA : ∀ q, c.assoc q = A) (q : Node N) (i : Fin 3) : defect x c q i = 0 := by
  rw [defect_comm]
  refine Finset.sum_eq_zero fun d _ => ?_
  rw [line_exact hx hN (p := C (A i d)) (by simp) (fun k => c.assoc k i d) q d fun l => by simp [hA]]
  simp

end MiniCFD.FR
