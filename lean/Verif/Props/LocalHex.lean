import Verif.Lemmas.LocalHexBasis
import Mathlib.Analysis.Calculus.FDeriv.Symmetric
import Mathlib.LinearAlgebra.Matrix.Adjugate

/-!
# C48: polynomials interpolated on hexahedra

`kLocal` polynomials interpolate the product of the represented function and the Jacobian determinant in the
local coordinates.  What they represent in physical space is the quotient, carried over by the map of the
cell; the theorems relate values, gradients, Hessians and fluxes to that function.
-/

namespace MiniCFD.LocalHex

open MiniCFD.Shape MiniCFD.Cell MiniCFD.Spec.Shape MiniCFD.Spec.LocalHex MiniCFD.Lagrange MiniCFD.Spec.Lagrange
open scoped Topology

variable {P Q R K : Nat}

/-! ### Values -/

theorem values_node {b : Basis P Q R} (hb : b.Distinct) (m n : Fin (size P Q R)) :
    b.values (b.node n) m = if m = n then 1 else 0 := by
  obtain ⟨i, hi, j, hj, k, hk, _, e⟩ := (index_bijective (P + 1) (Q + 1) (R + 1)).2 n n.2
  have hn := hexNode_index b.nx b.ny b.nz ⟨i, hi⟩ ⟨j, hj⟩ ⟨k, hk⟩
  rw [e] at hn
  have hv : b.node n = ![b.nx ⟨i, hi⟩, b.ny ⟨j, hj⟩, b.nz ⟨k, hk⟩] := by rw [Basis.node, hn]
  have := hex_cardinal hb.x hb.y hb.z m.2 hn n.2
  rw [Basis.values, hv, Lagrange.row]
  simp only [Matrix.cons_val, Fin.isValue]
  rw [this, Option.getD_some]
  simp only [Fin.val_inj]

theorem mulVec_node {b : Basis P Q R} (hb : b.Distinct) (coeff : Coeff K (size P Q R)) (n : Fin (size P Q R)) :
    coeff.mulVec (b.values (b.node n)) = fun k => coeff k n := by
  funext k
  simp [Matrix.mulVec, dotProduct, values_node hb]

/-- The caches exist exactly where the determinant does not vanish. -/
theorem cache_defined {g : Geometry} (hg : g.Hex) (p : Point ℝ 3) :
    (cache g p).isSome ↔ (g.jac p).det ≠ 0 := by
  constructor
  · intro h h0
    simp [cache, h0] at h
  · intro h0
    obtain ⟨Dg, Dh, dJ, h1, h2, h3, _⟩ := Geometry.data hg h0
    simp [cache, h0, h1, h2, h3]

theorem cache_det {g : Geometry} {p : Point ℝ 3} {c : Cache} (h : cache g p = some c) :
    (g.jac p).det ≠ 0 ∧ c.det = (g.jac p).det ∧ c.assoc = (g.jac p).det • (g.jac p)⁻¹
      ∧ g.detGrad p = some c.detGrad := by
  by_cases h0 : (g.jac p).det = 0
  · simp [cache, h0] at h
  · simp only [cache, h0, if_false, Option.bind_eq_bind, Option.bind_eq_some_iff, Option.some.injEq] at h
    obtain ⟨dg, h1, _, _, _, _, rfl⟩ := h
    exact ⟨h0, rfl, rfl, h1⟩

/-- **C48.** `GetValue` reads off what `LocalToValue` computes at the node. -/
theorem get_value {g : Geometry} {b : Basis P Q R} (hb : b.Distinct) (coeff : Coeff K (size P Q R))
    (m : Fin (size P Q R)) {c : Cache} (hc : cache g (b.node m) = some c) :
    localToValue g b coeff (b.node m) = some (getValue c coeff m) := by
  obtain ⟨h0, h1, _⟩ := cache_det hc
  rw [localToValue, if_neg h0, mulVec_node hb, getValue, h1]

/-- **C48.** After `Approximate`, the value at every node is that of the approximated function. -/
theorem approximate_nodes {g : Geometry} {b : Basis P Q R} (hb : b.Distinct) {caches : Fin (size P Q R) → Cache}
    (hc : ∀ m, cache g (b.node m) = some (caches m)) (f : Point ℝ 3 → Fin K → ℝ) (m : Fin (size P Q R)) :
    getValue (caches m) (approximate g b caches f) m = f (g.map (b.node m)) ∧
      localToValue g b (approximate g b caches f) (b.node m) = some (f (g.map (b.node m))) := by
  have h : getValue (caches m) (approximate g b caches f) m = f (g.map (b.node m)) := by
    obtain ⟨h0, h1, _⟩ := cache_det (hc m)
    funext k
    simp only [getValue, approximate, Pi.smul_apply, smul_eq_mul, h1]
    field_simp
  exact ⟨h, by rw [get_value hb _ _ (hc m), h]⟩

/-- **C48.** The same for `!kLocal`. -/
theorem approximate_nodes_global {g : Geometry} {b : Basis P Q R} (hb : b.Distinct)
    (f : Point ℝ 3 → Fin K → ℝ) (m : Fin (size P Q R)) :
    localToValueGlobal b (approximateGlobal g b f) (b.node m) = f (g.map (b.node m)) := by
  rw [localToValueGlobal, mulVec_node hb]
  rfl

theorem mulVec_reproduces {b : Basis P Q R} (hb : b.Distinct) (coeff : Coeff K (size P Q R)) (k : Fin K)
    (t : Fin (P + 1) → Fin (Q + 1) → Fin (R + 1) → ℝ)
    (h : ∀ m, coeff k m = triEval t 0 0 0 (b.node m 0) (b.node m 1) (b.node m 2)) (p : Point ℝ 3) :
    coeff.mulVec (b.values p) k = triEval t 0 0 0 (p 0) (p 1) (p 2) := by
  have := hex_reproduces hb.x hb.y hb.z t
    (fun m => if hm : m < size P Q R then coeff k ⟨m, hm⟩ else
      match hexNode b.nx b.ny b.nz m with
      | some (x, y, z) => triEval t 0 0 0 x y z
      | none => 0) (by
    intro m X Y Z e
    split_ifs with hm
    · rw [h]
      simp [Basis.node, e]
    · rw [e]) (p 0) (p 1) (p 2)
  rw [← this, contract, hexValues, tensorLoop_length, Finset.sum_range, Matrix.mulVec, dotProduct]
  refine Finset.sum_congr rfl fun m _ => ?_
  rw [dif_pos m.2]
  rfl

/-- **C48.** A function whose product with the determinant is a polynomial of bounded degree in each local
coordinate is reproduced everywhere. -/
theorem approximate_exact {g : Geometry} {b : Basis P Q R} (hb : b.Distinct) {caches : Fin (size P Q R) → Cache}
    (hc : ∀ m, cache g (b.node m) = some (caches m)) (f : Point ℝ 3 → Fin K → ℝ)
    (t : Fin K → Fin (P + 1) → Fin (Q + 1) → Fin (R + 1) → ℝ)
    (hf : ∀ p k, f (g.map p) k * (g.jac p).det = triEval (t k) 0 0 0 (p 0) (p 1) (p 2)) (p : Point ℝ 3)
    (h0 : (g.jac p).det ≠ 0) :
    localToValue g b (approximate g b caches f) p = some (f (g.map p)) := by
  rw [localToValue, if_neg h0]
  refine congrArg some (funext fun k => ?_)
  rw [Pi.smul_apply, mulVec_reproduces hb _ k (t k), ← hf, smul_eq_mul]
  · field_simp
  · intro m
    rw [← hf, approximate, (cache_det (hc m)).2.1]

/-- **C48.** The same for `!kLocal`: here the function itself has to be such a polynomial. -/
theorem approximate_exact_global {g : Geometry} {b : Basis P Q R} (hb : b.Distinct) (f : Point ℝ 3 → Fin K → ℝ)
    (t : Fin K → Fin (P + 1) → Fin (Q + 1) → Fin (R + 1) → ℝ)
    (hf : ∀ p k, f (g.map p) k = triEval (t k) 0 0 0 (p 0) (p 1) (p 2)) (p : Point ℝ 3) :
    localToValueGlobal b (approximateGlobal g b f) p = f (g.map p) := by
  funext k
  rw [localToValueGlobal, mulVec_reproduces hb _ k (t k), ← hf]
  intro m
  rw [← hf, approximateGlobal]

/-! ### Gradients -/

theorem localToGlobalGradient_eq {g : Geometry} {b : Basis P Q R} (h1 : 1 ≤ P ∧ 1 ≤ Q ∧ 1 ≤ R)
    (coeff : Coeff K (size P Q R)) {p : Point ℝ 3} (h0 : (g.jac p).det ≠ 0) {dg : Fin 3 → ℝ}
    (hd : g.detGrad p = some dg) :
    localToGlobalGradient g b coeff p = some (((1 / (g.jac p).det) • (g.jac p)⁻¹)
      * (outer (b.g1 p) coeff - Matrix.of fun j k => dg j / (g.jac p).det * coeff.mulVec (b.values p) k)) := by
  simp [localToGlobalGradient, localGradient, Basis.gradients_eq, h1, h0, hd]

/-- **C48.** `LocalToGlobalGradient` returns the gradients, with respect to the physical coordinates, of the
represented functions. -/
theorem local_to_global_gradient {g : Geometry} (hg : g.Hex) {b : Basis P Q R} (hb : b.Distinct)
    (h1 : 1 ≤ P ∧ 1 ≤ Q ∧ 1 ≤ R) (coeff : Coeff K (size P Q R)) {p : Point ℝ 3} (h0 : (g.jac p).det ≠ 0) :
    ∃ G, localToGlobalGradient g b coeff p = some G ∧
      ∀ (k : Fin K) (u : Point ℝ 3 → ℝ) (w : Fin 3 → ℝ),
        (∀ᶠ q in 𝓝 p, (localToValue g b coeff q).map (· k) = some (u (g.map q))) →
        HasGradient u w (g.map p) → ∀ c, G c k = w c := by
  obtain ⟨Dg, Dh, dJ, _, h2, _, hD, _⟩ := Geometry.data hg h0
  refine ⟨_, localToGlobalGradient_eq h1 coeff h0 h2, fun k u w hr hu c => ?_⟩
  have hr' : Represents g.map (fun q => poly b coeff k q / (g.jac q).det) p u := by
    filter_upwards [hr] with q hq
    unfold localToValue at hq
    split_ifs at hq with h
    · simp at hq
    · simp only [Option.map_some, Option.some.injEq, Pi.smul_apply, smul_eq_mul] at hq
      rw [← hq, poly]
      ring
  have := gradient_eq (Geometry.map_partial hg p) (poly_partial hb h1 coeff k p) (hD p) h0 hr' hu
  have hs := solve h0 (g := w) (funext this)
  rw [hs, Matrix.mul_apply]
  simp only [Matrix.mulVec, dotProduct, Matrix.smul_apply, smul_eq_mul, Matrix.sub_apply, Matrix.of_apply]
  refine Finset.sum_congr rfl fun a _ => ?_
  simp only [poly]
  field_simp
  rfl

/-- **C48.** At a node, `GetGlobalGradient` returns what `LocalToGlobalGradient` computes. -/
theorem get_global_gradient {g : Geometry} (hg : g.Hex) {b : Basis P Q R} (hb : b.Distinct)
    (h1 : 1 ≤ P ∧ 1 ≤ Q ∧ 1 ≤ R) (coeff : Coeff K (size P Q R)) (m : Fin (size P Q R))
    (h0 : (g.jac (b.node m)).det ≠ 0) :
    getGlobalGradient g b coeff m = localToGlobalGradient g b coeff (b.node m) := by
  obtain ⟨c, hc⟩ := Option.isSome_iff_exists.1 ((cache_defined hg _).2 h0)
  obtain ⟨_, e1, e2, e3⟩ := cache_det hc
  rw [localToGlobalGradient_eq h1 coeff h0 e3, mulVec_node hb]
  simp only [getGlobalGradient, localGradient, hc, Basis.gradients_eq, h1, if_true, and_self,
    Option.bind_eq_bind, Option.bind_some, Option.map_some, globalGradient, getValue, Option.some.injEq]
  rw [e2, e1]
  ext i k
  simp only [Matrix.mul_apply, Matrix.smul_apply, smul_eq_mul, Matrix.sub_apply, Matrix.of_apply, Pi.smul_apply]
  refine Finset.sum_congr rfl fun a _ => ?_
  field_simp

/-- **C48.** For `!kLocal`, `GetGlobalGradient` returns the gradients of the represented functions. -/
theorem get_global_gradient_global {g : Geometry} (hg : g.Hex) {b : Basis P Q R} (hb : b.Distinct)
    (h1 : 1 ≤ P ∧ 1 ≤ Q ∧ 1 ≤ R) (coeff : Coeff K (size P Q R)) (m : Fin (size P Q R))
    (h0 : (g.jac (b.node m)).det ≠ 0) :
    ∃ G, getGlobalGradientGlobal g b coeff m = some G ∧
      ∀ (k : Fin K) (u : Point ℝ 3 → ℝ) (w : Fin 3 → ℝ),
        (∀ᶠ q in 𝓝 (b.node m), localToValueGlobal b coeff q k = u (g.map q)) →
        HasGradient u w (g.map (b.node m)) → ∀ c, G c k = w c := by
  refine ⟨(g.jac (b.node m))⁻¹ * b.g1 (b.node m) * coeff.transpose, ?_, fun k u w hr hu c => ?_⟩
  · simp [getGlobalGradientGlobal, Basis.gradients_eq, h1, localGradientsToGlobalGradients, h0]
  · have hr' : ∀ᶠ q in 𝓝 (b.node m), u (g.map q) = poly b coeff k q := by
      filter_upwards [hr] with q hq
      exact hq.symm
    have this : ∀ a, ∑ d, g.jac (b.node m) a d * w d = outer (b.g1 (b.node m)) coeff a k := fun a =>
      partial_unique (chain_partial (Geometry.map_partial hg _ a) hu)
        (partial_congr (poly_partial hb h1 coeff k (b.node m) a) hr')
    rw [solve h0 (g := w) (funext this), Matrix.mul_assoc, Matrix.mul_apply]
    simp only [Matrix.mulVec, dotProduct, outer_apply, Matrix.mul_apply, Matrix.transpose_apply]

/-! ### Hessians -/

/-- Second derivatives commute. -/
theorem hessian_symm {u : Point ℝ 3 → ℝ} {h : Fin 3 → Fin 3 → ℝ} {x : Point ℝ 3} (hu : HasHessian u h x)
    (c d : Fin 3) : h c d = h d c := by
  obtain ⟨G, hG, hh⟩ := hu
  have h1 : HasFDerivAt (fun y => form (G y)) (∑ c, (form (h c)).smulRight
      (ContinuousLinearMap.proj (R := ℝ) (φ := fun _ : Fin 3 => ℝ) c)) x := by
    have e : (fun y => form (G y)) = fun y => ∑ c, G y c •
        ContinuousLinearMap.proj (R := ℝ) (φ := fun _ : Fin 3 => ℝ) c := rfl
    rw [e]
    refine HasFDerivAt.fun_sum fun c _ => ?_
    have := HasFDerivAt.smul_const (F := (Fin 3 → ℝ) →L[ℝ] ℝ) (hh c)
      (ContinuousLinearMap.proj (R := ℝ) (φ := fun _ : Fin 3 => ℝ) c)
    exact this
  have := second_derivative_symmetric_of_eventually_of_real hG h1 (Pi.single d 1) (Pi.single c 1)
  simpa [form_apply, Pi.single_apply] using this

theorem scalarHessian_eq {g : Geometry} {p : Point ℝ 3} {c : Cache} (hc : cache g p = some c)
    {Dg : Fin 3 → ℝ} {Dh : Fin 6 → ℝ} {dJ : Fin 3 → Mat} (e1 : g.jacGrad p = some dJ)
    (e2 : g.detGrad p = some Dg) (e3 : g.detHess p = some Dh) {Uh : Fin 6 → ℝ} {Ug w : Fin 3 → ℝ} {U : ℝ}
    {h : Fin 3 → Fin 3 → ℝ}
    (hw : ∀ a, ∑ c, g.jac p a c * w c = (Ug a * (g.jac p).det - U * Dg a) / (g.jac p).det ^ 2)
    (hh : ∀ a b, ∑ c, (dJ b a c * w c + g.jac p a c * ∑ d, g.jac p b d * h c d)
      = ((Uh (sym2 a b) * (g.jac p).det + Ug a * Dg b - (Ug b * Dg a + U * Dh (sym2 a b))) * (g.jac p).det ^ 2
          - (Ug a * (g.jac p).det - U * Dg a) * (2 * (g.jac p).det * Dg b)) / ((g.jac p).det ^ 2) ^ 2) :
    scalarHessian c Uh Ug U = Matrix.of fun d c => h c d := by
  have h0 := (cache_det hc).1
  simp only [cache, h0, e1, e2, e3, if_false, Option.bind_eq_bind, Option.bind_some, Option.some.injEq] at hc
  subst hc
  generalize g.jac p = J at *
  have hu : IsUnit J.det := isUnit_iff_ne_zero.2 h0
  set D := J.det with hD
  have hsymm : ∀ a b, sym2 a b = sym2 b a := by decide
  have mv : ∀ v : Fin 3 → ℝ, J.mulVec (J⁻¹.mulVec v) = v := fun v => by
    rw [Matrix.mulVec_mulVec, Matrix.mul_nonsing_inv _ hu, Matrix.one_mulVec]
  have ww : w = (1 / D) • J⁻¹.mulVec Ug - (U / D ^ 2) • J⁻¹.mulVec Dg := by
    rw [solve h0 (g := w) (funext hw), ← Matrix.mulVec_smul, ← Matrix.mulVec_smul, ← Matrix.mulVec_sub]
    congr 1
    funext a
    simp only [Pi.sub_apply, Pi.smul_apply, smul_eq_mul]
    field_simp
  unfold scalarHessian
  dsimp only
  rw [Matrix.smul_mul, smul_smul, one_div_mul_cancel h0, one_smul]
  refine rows_eq h0 (r := fun b a =>
    ((Uh (sym2 a b) * D + Ug a * Dg b - (Ug b * Dg a + U * Dh (sym2 a b))) * D ^ 2
          - (Ug a * D - U * Dg a) * (2 * D * Dg b)) / (D ^ 2) ^ 2 - (dJ b).mulVec w a) (fun b => ?_) (fun b => ?_)
  · -- what the code collects
    have hS : ∀ M N : Mat, (M * N) b = Matrix.vecMul (M b) N := fun M N => rfl
    have neg : ∀ v : Fin 3 → ℝ, Matrix.vecMul v (-(J⁻¹ * dJ b * J⁻¹).transpose)
        = -(J⁻¹.mulVec ((dJ b).mulVec (J⁻¹.mulVec v))) := fun v => by
      rw [Matrix.vecMul_neg, Matrix.vecMul_transpose, Matrix.mulVec_mulVec, Matrix.mulVec_mulVec, Matrix.mul_assoc]
    have row : ((Matrix.of fun a => (unpack Uh * ((1 / D) • J⁻¹.transpose)) a
          + (Matrix.vecMul Ug ((1 / D) • -(J⁻¹ * dJ a * J⁻¹).transpose + (-Dg a / (D * D)) • J⁻¹.transpose)
            - Ug a • (1 / (D * D)) • Matrix.vecMul Dg J⁻¹.transpose))
        - U • Matrix.of fun a => (unpack Dh * ((1 / (D * D)) • J⁻¹.transpose)) a
          + Matrix.vecMul Dg ((1 / (D * D)) • -(J⁻¹ * dJ a * J⁻¹).transpose
            + (-2 * Dg a / (D * D * D)) • J⁻¹.transpose) : Mat) b
        = J⁻¹.mulVec ((1 / D) • unpack Uh b - (1 / D) • (dJ b).mulVec (J⁻¹.mulVec Ug) + (-Dg b / (D * D)) • Ug
          - (Ug b * (1 / (D * D))) • Dg - U • ((1 / (D * D)) • unpack Dh b
            - (1 / (D * D)) • (dJ b).mulVec (J⁻¹.mulVec Dg) + (-2 * Dg b / (D * D * D)) • Dg)) := by
      have e : ∀ A B : Mat, ∀ s : ℝ, (A - s • B) b = A b - s • B b := fun _ _ _ => rfl
      have e' : ∀ f : Fin 3 → Fin 3 → ℝ, (Matrix.of f : Mat) b = f b := fun _ => rfl
      rw [e, e', e']
      simp only [hS, Matrix.vecMul_add, Matrix.vecMul_smul, neg, Matrix.vecMul_transpose, Matrix.mulVec_sub,
        Matrix.mulVec_add, Matrix.mulVec_smul]
      module
    refine (congrArg J.mulVec row).trans ?_
    rw [mv, ww]
    funext a
    simp only [Pi.sub_apply, Pi.add_apply, Pi.smul_apply, smul_eq_mul, unpack_apply, Matrix.mulVec_sub,
      Matrix.mulVec_smul]
    rw [hsymm b a]
    field_simp
    ring
  · funext a
    rw [← hh a b]
    simp only [Matrix.mulVec, dotProduct, Matrix.mul_apply, Matrix.of_apply, Finset.sum_add_distrib]
    ring

theorem getGlobalHessian_eq {g : Geometry} {b : Basis P Q R}
    (h2 : 2 ≤ P ∧ 2 ≤ Q ∧ 2 ≤ R) (coeff : Coeff K (size P Q R)) (m : Fin (size P Q R))
    {c : Cache} (hc : cache g (b.node m) = some c) :
    getGlobalHessian g b coeff m = some (Matrix.of fun s k =>
      let h := scalarHessian c (fun s => outer (b.g2 (b.node m)) coeff s k)
        (fun j => outer (b.g1 (b.node m)) coeff j k) (coeff k m)
      (![h 0 0, h 0 1, h 0 2, h 1 1, h 1 2, h 2 2] : Fin 6 → ℝ) s) := by
  have h1 : 1 ≤ P ∧ 1 ≤ Q ∧ 1 ≤ R := by omega
  rw [getGlobalHessian, hc, localGradient, Basis.gradients_eq, Basis.hessians_eq, if_pos h1, if_pos h2]
  rfl

/-- **C48.** `GetGlobalHessian` returns, in the slot of the pair of directions, the second derivatives with
respect to the physical coordinates of the represented functions. -/
theorem get_global_hessian {g : Geometry} (hg : g.Hex) {b : Basis P Q R} (hb : b.Distinct)
    (h2 : 2 ≤ P ∧ 2 ≤ Q ∧ 2 ≤ R) (coeff : Coeff K (size P Q R)) (m : Fin (size P Q R))
    (h0 : (g.jac (b.node m)).det ≠ 0) :
    ∃ H, getGlobalHessian g b coeff m = some H ∧
      ∀ (k : Fin K) (u : Point ℝ 3 → ℝ) (h : Fin 3 → Fin 3 → ℝ),
        (∀ᶠ q in 𝓝 (b.node m), (localToValue g b coeff q).map (· k) = some (u (g.map q))) →
        HasHessian u h (g.map (b.node m)) → ∀ c d, H (sym2 c d) k = h c d := by
  have h1 : 1 ≤ P ∧ 1 ≤ Q ∧ 1 ≤ R := by omega
  obtain ⟨c, hc⟩ := Option.isSome_iff_exists.1 ((cache_defined hg _).2 h0)
  refine ⟨_, getGlobalHessian_eq h2 coeff m hc, fun k u h hr hu => ?_⟩
  obtain ⟨Dg, Dh, dJ, e1, e2, e3, hD, hDg, hJ⟩ := Geometry.data hg h0
  have hr' : Represents g.map (fun q => poly b coeff k q / (g.jac q).det) (b.node m) u := by
    filter_upwards [hr] with q hq
    unfold localToValue at hq
    split_ifs at hq with h
    · simp at hq
    · simp only [Option.map_some, Option.some.injEq, Pi.smul_apply, smul_eq_mul] at hq
      rw [← hq, poly]
      ring
  obtain ⟨w, hw, hh⟩ := hessian_eq (X := g.map) (J := g.jac) (dJ := dJ) (U := poly b coeff k)
    (D := fun q => (g.jac q).det) (Ug := fun q a => outer (b.g1 q) coeff a k)
    (Uh := fun i j => outer (b.g2 (b.node m)) coeff (sym2 i j) k) (Dg := Dg) (Dh := fun i j => Dh (sym2 i j))
    (Geometry.map_partial hg) hJ (poly_partial hb h1 coeff k)
    (grad_partial hb h2 coeff k (b.node m)) hD hDg h0 hr' hu
  have hp : poly b coeff k (b.node m) = coeff k m := congrFun (mulVec_node hb coeff m) k
  have hgr := gradient_eq (X := g.map) (U := poly b coeff k) (D := fun q => (g.jac q).det)
    (Ug := fun a => outer (b.g1 (b.node m)) coeff a k) (Dg := Dg (b.node m)) (Geometry.map_partial hg _)
    (poly_partial hb h1 coeff k _) (hD _) h0 hr' hw
  rw [hp] at hgr hh
  have key := scalarHessian_eq (Uh := fun s => outer (b.g2 (b.node m)) coeff s k)
    (Ug := fun j => outer (b.g1 (b.node m)) coeff j k) (U := coeff k m) (w := w) (h := h) hc e1 e2 e3 hgr hh
  have hs := hessian_symm hu
  have key' := fun i j : Fin 3 => congrFun (congrFun key i) j
  intro i j
  simp only [Matrix.of_apply] at key' ⊢
  generalize scalarHessian c (fun s => outer (b.g2 (b.node m)) coeff s k)
    (fun j => outer (b.g1 (b.node m)) coeff j k) (coeff k m) = S at key' ⊢
  fin_cases i <;> fin_cases j
  · exact key' 0 0
  · exact (key' 0 1).trans (hs _ _)
  · exact (key' 0 2).trans (hs _ _)
  · exact key' 0 1
  · exact key' 1 1
  · exact (key' 1 2).trans (hs _ _)
  · exact key' 0 2
  · exact key' 1 2
  · exact key' 2 2

/-- **C48 (finding).** The table of second derivatives of the basis is complete only if every degree is at
least two; below that the constructor reads past its end. -/
theorem basis_hessians_defined (b : Basis P Q R) (p : Point ℝ 3) :
    (b.hessians p).isSome ↔ 2 ≤ P ∧ 2 ≤ Q ∧ 2 ≤ R := by
  rw [Basis.hessians_eq]
  split_ifs with h <;> simp [h]

/-- The table of first derivatives. -/
theorem basis_gradients_defined (b : Basis P Q R) (p : Point ℝ 3) :
    (b.gradients p).isSome ↔ 1 ≤ P ∧ 1 ≤ Q ∧ 1 ≤ R := by
  rw [Basis.gradients_eq]
  split_ifs with h <;> simp [h]

/-! ### Fluxes -/

/-- Column `a` of `J.det • J⁻¹`. -/
def cofactor (J : Mat) (c a : Fin 3) : ℝ :=
  J (a + 1) (c + 1) * J (a + 2) (c + 2) - J (a + 1) (c + 2) * J (a + 2) (c + 1)

theorem assoc_eq {J : Mat} (h0 : J.det ≠ 0) (c a : Fin 3) : (J.det • J⁻¹) c a = cofactor J c a := by
  have : J.det • J⁻¹ = J.adjugate := by
    rw [Matrix.inv_def, Ring.inverse_eq_inv', smul_smul, mul_inv_cancel₀ h0, one_smul]
  rw [this, Matrix.adjugate_fin_three, cofactor]
  fin_cases c <;> fin_cases a <;>
    simp only [Fin.zero_eta, Fin.mk_one, Fin.reduceFinMk, Fin.isValue, Fin.reduceAdd, Matrix.of_apply,
      Matrix.cons_val', Matrix.cons_val, zero_add] <;> ring

/-- **C48.** The cached matrix turns a flux into the fluxes through the coordinate surfaces: its column `a` is
the cross product of the tangents along the two other local axes, in cyclic order. -/
theorem assoc_cross {g : Geometry} {p : Point ℝ 3} {c : Cache} (hc : cache g p = some c) (a : Fin 3) :
    (fun i => c.assoc i a) = crossProduct (jacobian g.element g.coords p (a + 1))
      (jacobian g.element g.coords p (a + 2)) := by
  obtain ⟨h0, _, h2, _⟩ := cache_det hc
  have e : ∀ i j, g.jac p i j = jacobian g.element g.coords p i j := fun _ _ => rfl
  funext i
  rw [h2, assoc_eq h0, cross_apply, cofactor]
  simp only [e]
  fin_cases i <;>
    simp only [Fin.zero_eta, Fin.mk_one, Fin.reduceFinMk, Fin.isValue, Fin.reduceAdd, Matrix.cons_val, zero_add] <;>
    ring

/-- **C48.** The divergence of the local flux, with respect to the local coordinates, is the divergence of the
global flux times the determinant. -/
theorem flux_divergence {g : Geometry} (hg : g.Hex) {p : Point ℝ 3} (h0 : (g.jac p).det ≠ 0)
    (f : Point ℝ 3 → Matrix (Fin K) (Fin 3) ℝ) (k : Fin K) {G : Fin 3 → Fin 3 → ℝ}
    (hf : ∀ c, HasGradient (fun x => f x k c) (G c) (g.map p)) {F : Point ℝ 3 → Matrix (Fin K) (Fin 3) ℝ}
    (hF : ∀ᶠ q in 𝓝 p, (cache g q).map (globalFluxToLocalFlux · (f (g.map q))) = some (F q)) :
    ∃ d : Fin 3 → ℝ, (∀ a, HasPartial (fun q => F q k a) a (d a) p) ∧ ∑ a, d a = (g.jac p).det * ∑ c, G c c := by
  obtain ⟨Dg, Dh, dJ, e1, -, -, -, -, hJ⟩ := Geometry.data hg h0
  have hs : ∀ a b c, dJ a b c = dJ b a c := by
    intro a b c
    obtain ⟨h, -, rfl⟩ := Option.map_eq_some_iff.1 e1
    fin_cases a <;> fin_cases b <;> rfl
  have hF' : ∀ᶠ q in 𝓝 p, ∀ a, F q k a = ∑ c, f (g.map q) k c * cofactor (g.jac q) c a := by
    filter_upwards [hF] with q hq a
    obtain ⟨c, hc, e⟩ := Option.map_eq_some_iff.1 hq
    obtain ⟨h, _, h2, _⟩ := cache_det hc
    rw [← e, globalFluxToLocalFlux, Matrix.mul_apply, h2]
    exact Finset.sum_congr rfl fun c _ => by rw [assoc_eq h]
  have hcof : ∀ c a, HasPartial (fun q => cofactor (g.jac q) c a) a
      (dJ a (a + 1) (c + 1) * g.jac p (a + 2) (c + 2) + g.jac p (a + 1) (c + 1) * dJ a (a + 2) (c + 2)
        - (dJ a (a + 1) (c + 2) * g.jac p (a + 2) (c + 1) + g.jac p (a + 1) (c + 2) * dJ a (a + 2) (c + 1))) p := by
    intro c a
    have := HasDerivAt.sub (HasDerivAt.mul (hJ (a + 1) a (c + 1)) (hJ (a + 2) a (c + 2)))
      (HasDerivAt.mul (hJ (a + 1) a (c + 2)) (hJ (a + 2) a (c + 1)))
    simp only [Function.update_eq_self] at this
    exact this
  have hd : ∀ a, HasPartial (fun q => ∑ c, f (g.map q) k c * cofactor (g.jac q) c a) a
      (∑ c, ((∑ d, g.jac p a d * G c d) * cofactor (g.jac p) c a + f (g.map p) k c *
      (dJ a (a + 1) (c + 1) * g.jac p (a + 2) (c + 2) + g.jac p (a + 1) (c + 1) * dJ a (a + 2) (c + 2)
        - (dJ a (a + 1) (c + 2) * g.jac p (a + 2) (c + 1)
          + g.jac p (a + 1) (c + 2) * dJ a (a + 2) (c + 1))))) p := by
    intro a
    refine HasDerivAt.fun_sum fun c _ => ?_
    have := HasDerivAt.mul (chain_partial (Geometry.map_partial hg p a) (hf c)) (hcof c a)
    simp only [Function.update_eq_self] at this
    exact this
  refine ⟨_, fun a => partial_congr (hd a) (hF'.mono fun q h => h a), ?_⟩
  rw [Matrix.det_fin_three]
  simp only [Fin.sum_univ_three, cofactor, Fin.isValue, Fin.reduceAdd, zero_add]
  rw [hs 1 0, hs 2 0, hs 2 1, hs 1 0, hs 2 0, hs 2 1, hs 1 0, hs 2 0, hs 2 1]
  ring

/-! ### A cell of edge four, and the function `x * y` on it -/

/-- The cube `[-2, 2]³`. -/
noncomputable def cube : Geometry where
  kind := .hexahedron8
  element := hexahedron8 ℝ
  coords := fun i => affine (fun r c : Fin 3 => if r = c then 2 else 0) 0 (embed ((hexahedron8 ℝ).nodes i))

theorem cube_hex : cube.Hex := ⟨rfl, trivial⟩

theorem cube_map (p : Point ℝ 3) : cube.map p = fun c => 2 * p c := by
  refine (local_to_global_straight (k := .hexahedron8) (fun h => h) rfl _ _ cube.coords (fun _ => rfl) p).trans ?_
  funext c
  simp [affine]

theorem cube_det (p : Point ℝ 3) : (cube.jac p).det = 8 := by
  have : cube.jac p = Matrix.diagonal fun _ => 2 := by
    ext r c
    refine (jacobian_straight (k := .hexahedron8) (fun h => h) rfl _ _ cube.coords (fun _ => rfl) p r c).trans ?_
    by_cases h : r = c
    · subst h; simp
    · simp [h, Ne.symm h]
  rw [this, Matrix.det_diagonal]
  norm_num

/-- Three nodes along each axis. -/
noncomputable def three : Basis 2 2 2 := ⟨![-1, 0, 1], ![-1, 0, 1], ![-1, 0, 1]⟩

theorem three_distinct : three.Distinct := by
  have h : Function.Injective (![-1, 0, 1] : Fin 3 → ℝ) := by
    intro i j e
    fin_cases i <;> fin_cases j <;> first | rfl | (exfalso; norm_num at e)
  exact ⟨h, h, h⟩

theorem xy_hessian (x : Point ℝ 3) :
    HasHessian (fun y => y 0 * y 1) ![![0, 1, 0], ![1, 0, 0], ![0, 0, 0]] x := by
  have hp : ∀ (i : Fin 3) (y : Point ℝ 3), HasFDerivAt (fun z : Point ℝ 3 => z i)
      (ContinuousLinearMap.proj (R := ℝ) (φ := fun _ : Fin 3 => ℝ) i) y :=
    fun i y => hasFDerivAt_apply i y
  refine ⟨fun y => ![y 1, y 0, 0], Filter.Eventually.of_forall fun y => ?_, fun c => ?_⟩
  · refine ((hp 0 y).mul (hp 1 y)).congr_fderiv ?_
    ext v
    simp [form_apply, Fin.sum_univ_three]
    ring
  · fin_cases c
    · refine (hp 1 x).congr_fderiv ?_
      ext v; simp [form_apply, Fin.sum_univ_three]
    · refine (hp 0 x).congr_fderiv ?_
      ext v; simp [form_apply, Fin.sum_univ_three]
    · refine (hasFDerivAt_const (0 : ℝ) x).congr_fderiv ?_
      ext v; simp [form_apply, Fin.sum_univ_three]

/-- Approximating `x * y` on the cube and asking for its Hessian gives one for the mixed derivative and zero
for the others. -/
example (m : Fin (size 2 2 2)) : ∃ caches H,
    (∀ m, cache cube (three.node m) = some (caches m)) ∧
    getGlobalHessian cube three (approximate (K := 1) cube three caches fun x _ => x 0 * x 1) m = some H ∧
    ∀ c d, H (sym2 c d) 0 = (![![0, 1, 0], ![1, 0, 0], ![0, 0, 0]] : Fin 3 → Fin 3 → ℝ) c d := by
  have h0 : ∀ p, (cube.jac p).det ≠ 0 := fun p => by rw [cube_det]; norm_num
  have hc : ∀ m, cache cube (three.node m) = some ((cache cube (three.node m)).get
      ((cache_defined cube_hex _).2 (h0 _))) := fun m => (Option.some_get _).symm
  obtain ⟨H, h1, h2⟩ := get_global_hessian cube_hex three_distinct ⟨le_rfl, le_rfl, le_rfl⟩
    (approximate (K := 1) cube three _ fun x _ => x 0 * x 1) m (h0 _)
  refine ⟨_, H, hc, h1, h2 0 _ _ (Filter.Eventually.of_forall fun q => ?_) (xy_hessian _)⟩
  rw [approximate_exact three_distinct hc (fun x _ => x 0 * x 1)
    (fun _ p q r => if p = 1 ∧ q = 1 ∧ r = 0 then 32 else 0) _ q (h0 q)]
  · rfl
  · intro p k
    rw [cube_det, cube_map]
    simp [triEval, Fin.sum_univ_three]
    ring

/-- The flux `x` has divergence three; its local flux on the cube has divergence twenty-four. -/
example (p : Point ℝ 3) : ∃ F : Point ℝ 3 → Matrix (Fin 1) (Fin 3) ℝ, ∃ d : Fin 3 → ℝ,
    (∀ q, (cache cube q).map (globalFluxToLocalFlux · fun _ c => cube.map q c) = some (F q)) ∧
    (∀ a, HasPartial (fun q => F q 0 a) a (d a) p) ∧ ∑ a, d a = 24 := by
  have h0 : ∀ p, (cube.jac p).det ≠ 0 := fun p => by rw [cube_det]; norm_num
  have hc : ∀ q, cache cube q = some ((cache cube q).get ((cache_defined cube_hex _).2 (h0 _))) :=
    fun q => (Option.some_get _).symm
  have hF : ∀ q, (cache cube q).map (globalFluxToLocalFlux (K := 1) · fun _ c => cube.map q c)
      = some (globalFluxToLocalFlux ((cache cube q).get ((cache_defined cube_hex _).2 (h0 _)))
        fun _ c => cube.map q c) := fun q => by
    conv_lhs => rw [hc]
    rfl
  obtain ⟨d, h1, h2⟩ := flux_divergence cube_hex (h0 p) (fun x (_ : Fin 1) c => x c) 0
    (G := fun c => Pi.single c 1) (fun c => by
      refine (hasFDerivAt_apply c (cube.map p)).congr_fderiv ?_
      ext v; simp [form_apply, Pi.single_apply]) (Filter.Eventually.of_forall hF)
  refine ⟨_, d, hF, h1, h2.trans ?_⟩
  rw [cube_det]
  simp
  norm_num

end MiniCFD.LocalHex
