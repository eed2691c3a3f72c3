import Verif.Lemmas.ShapeQuadratic
import Verif.Model.Cell

/-!
# C40: shape functions; C60: second-order elements reproduce quadratic maps
-/

namespace MiniCFD.Shape

open MiniCFD.Spec.Shape

/-- The straight version of an element: the cube of local coordinates is squeezed for pyramids, and left
alone for all others. -/
noncomputable def straight : (k : Kind) → Point ℝ k.dim → Point ℝ k.dim
  | .pyramid5 | .pyramid13 | .pyramid14 => collapse
  | _ => id

theorem Sound.family {d n : Nat} {e : Element ℝ d n} {φ : Point ℝ d → Point ℝ d} (s : Sound e φ) :
    IsFamily (real e.nodes) e.shapes e.grads φ :=
  ⟨s.cardinal, s.unity, s.linear, fun p i j => s.grads i j p⟩

/-- **C40.** For every shipped element the shape functions are cardinal at the nodes, sum to one,
reproduce the coordinates of the straight element, and the gradients returned by
`LocalToShapeGradients` are their partial derivatives everywhere. -/
theorem shape_family (k : Kind) :
    IsFamily (real (k.element ℝ).nodes) (k.element ℝ).shapes (k.element ℝ).grads (straight k) := by
  cases k
  · exact sound_triangle3.family
  · exact sound_triangle6.family
  · exact sound_quadrangle4.family
  · exact sound_quadrangle8.family
  · exact sound_quadrangle9.family
  · exact sound_tetrahedron4.family
  · exact sound_tetrahedron10.family
  · exact sound_pyramid5.family
  · exact sound_pyramid13.family
  · exact sound_pyramid14.family
  · exact sound_wedge6.family
  · exact sound_wedge15.family
  · exact sound_wedge18.family
  · exact sound_hexahedron8.family
  · exact sound_hexahedron20.family
  · exact sound_hexahedron26.family
  · exact sound_hexahedron27.family

variable {D : Nat}

/-- **C40.** `LocalToGlobal` maps each node's local coordinates to the node. -/
theorem local_to_global_node (k : Kind) (coords : Fin k.count → Point ℝ D) (i : Fin k.count) :
    localToGlobal (k.element ℝ) coords (embed ((k.element ℝ).nodes i)) = coords i := by
  funext c
  have h := (shape_family k).cardinal
  have h' : ∀ j, (k.element ℝ).shapes (embed ((k.element ℝ).nodes i)) j = if j = i then 1 else 0 :=
    fun j => h j i
  simp only [localToGlobal, h', mul_ite, mul_one, mul_zero, Finset.sum_ite_eq', Finset.mem_univ,
    if_true]

/-- **C40.** `LocalToGlobal` commutes with every affine change of the physical coordinates. -/
theorem local_to_global_commutes {D' : Nat} (k : Kind) (coords : Fin k.count → Point ℝ D)
    (A : Fin D' → Fin D → ℝ) (b : Fin D' → ℝ) (p : Point ℝ k.dim) :
    localToGlobal (k.element ℝ) (fun i => affine A b (coords i)) p
      = affine A b (localToGlobal (k.element ℝ) coords p) := by
  funext c
  have h := (shape_family k).unity p
  simp only [localToGlobal, affine, add_mul, Finset.sum_add_distrib, Finset.sum_mul, Finset.mul_sum]
  rw [← Finset.mul_sum, h, mul_one, Finset.sum_comm]
  congr 1
  exact Finset.sum_congr rfl fun _ _ => Finset.sum_congr rfl fun _ _ => by ring

/-- **C40.** When the nodes are placed on an affine image of the straight element, `LocalToGlobal` is
that affine image. -/
theorem local_to_global_affine (k : Kind) (A : Fin D → Fin k.dim → ℝ) (b : Fin D → ℝ)
    (coords : Fin k.count → Point ℝ D)
    (h : ∀ i, coords i = affine A b (straight k (embed ((k.element ℝ).nodes i)))) (p : Point ℝ k.dim) :
    localToGlobal (k.element ℝ) coords p = affine A b (straight k p) := by
  have h0 : coords = fun i => affine A b (straight k (embed ((k.element ℝ).nodes i))) := funext h
  rw [h0, local_to_global_commutes]
  congr 1
  funext c
  have : _ = straight k p c := (shape_family k).linear c p
  simp only [localToGlobal]
  rw [← this]
  exact Finset.sum_congr rfl fun i _ => mul_comm _ _

/-- Hypotheses met: a 13-node pyramid with its nodes on an enlarged straight pyramid, which is not the
image of the nodes themselves. -/
example (p : Point ℝ (Kind.dim .pyramid13)) : localToGlobal (Kind.pyramid13.element ℝ)
    (fun i => affine (fun c j => if c = j then 4 else 0) 0
      (straight .pyramid13 (embed ((Kind.pyramid13.element ℝ).nodes i)))) p
    = affine (fun c j => if c = j then 4 else 0) 0 (straight .pyramid13 p) :=
  local_to_global_affine .pyramid13 _ _ _ (fun _ => rfl) p

example : affine (fun c j : Fin 3 => if c = j then 4 else 0) 0 (collapse (fun _ => 1 / 2)) (0 : Fin 3) = 1 / 2 := by
  simp only [affine, collapse, Fin.sum_univ_three, Fin.isValue, Fin.reduceEq, reduceIte]
  norm_num

/-- **C40.** For hexahedra `LocalToShapeHessians` returns the second derivatives of the shape functions
(the partial derivatives of `LocalToShapeGradients`), in the slots of the symmetric indices. -/
theorem hexahedron_hessians (p : Point ℝ 3) (j k : Fin 3) :
    (∀ i, HasPartial (fun q => (hexahedron8 ℝ).grads q i j) k (hessians8 p i (sym2 j k)) p) ∧
    (∀ i, HasPartial (fun q => (hexahedron20 ℝ).grads q i j) k (hessians20 p i (sym2 j k)) p) ∧
    (∀ i, HasPartial (fun q => (hexahedron26 ℝ).grads q i j) k (hessians26 p i (sym2 j k)) p) ∧
    (∀ i, HasPartial (fun q => (hexahedron27 ℝ).grads q i j) k (hessians27 p i (sym2 j k)) p) :=
  ⟨fun i => hess8 i j k p, fun i => hess20 i j k p, fun i => hess26 i j k p, fun i => hess27 i j k p⟩

/-- **C40.** For hexahedra `LocalToShape3rdOrderDerivatives` returns the partial derivatives of
`LocalToShapeHessians`. -/
theorem hexahedron_thirds (p : Point ℝ 3) (j k l : Fin 3) :
    (∀ i, HasPartial (fun q => hessians8 q i (sym2 j k)) l (thirds8 p i (sym3 j k l)) p) ∧
    (∀ i, HasPartial (fun q => hessians20 q i (sym2 j k)) l (thirds20 p i (sym3 j k l)) p) ∧
    (∀ i, HasPartial (fun q => hessians26 q i (sym2 j k)) l (thirds26 p i (sym3 j k l)) p) ∧
    (∀ i, HasPartial (fun q => hessians27 q i (sym2 j k)) l (thirds27 p i (sym3 j k l)) p) :=
  ⟨fun i => third8 i j k l p, fun i => third20 i j k l p, fun i => third26 i j k l p,
    fun i => third27 i j k l p⟩

/-- Non-trivial instances: the second and third derivatives of the bubble of the 27-node element. -/
example : hessians27 (K := ℚ) ![0, 0, 0] 26 (sym2 0 0) = -2 := by decide +kernel

example : thirds27 (K := ℚ) ![0, 1 / 2, 0] 26 (sym3 0 0 1) = 2 := by decide +kernel

/-! ### C60 -/

/-- The elements whose nodes include the middles of their edges, pyramids excluded. -/
def Kind.SecondOrder : Kind → Prop
  | triangle6 | quadrangle8 | quadrangle9 | tetrahedron10 | wedge15 | wedge18 | hexahedron20
  | hexahedron26 | hexahedron27 => True
  | _ => False

/-- Products of two coordinates are reproduced. -/
theorem reproduces_product (k : Kind) (hk : k.SecondOrder) (a b : Fin k.dim) :
    Reproduces (k.element ℝ).shapes (real (k.element ℝ).nodes) (fun p => p a * p b) := by
  cases k <;> first | exact hk.elim | skip
  · exact quad_triangle6 a b
  · exact quad_quadrangle8 a b
  · exact quad_quadrangle9 a b
  · exact quad_tetrahedron10 a b
  · exact quad_wedge15 a b
  · exact quad_wedge18 a b
  · exact quad_hexahedron20 a b
  · exact quad_hexahedron26 a b
  · exact quad_hexahedron27 a b

/-- **C60.** When the nodes of a second-order element are placed on a quadratic surface or body, that is
`coords i = Q (local i)` for a polynomial map `Q` of degree two, `LocalToGlobal` is `Q` everywhere. -/
theorem local_to_global_quadratic (k : Kind) (hk : k.SecondOrder) (Q2 : Fin D → Fin k.dim → Fin k.dim → ℝ)
    (Q1 : Fin D → Fin k.dim → ℝ) (Q0 : Fin D → ℝ) (coords : Fin k.count → Point ℝ D)
    (h : ∀ i c, coords i c = (∑ a, ∑ b, Q2 c a b * ((embed ((k.element ℝ).nodes i) : Point ℝ k.dim) a *
      (embed ((k.element ℝ).nodes i) : Point ℝ k.dim) b))
      + affine Q1 Q0 (embed ((k.element ℝ).nodes i)) c) (p : Point ℝ k.dim) (c : Fin D) :
    localToGlobal (k.element ℝ) coords p c
      = (∑ a, ∑ b, Q2 c a b * (p a * p b)) + affine Q1 Q0 p c := by
  have hs : straight k = id := by cases k <;> first | exact hk.elim | rfl
  have h1 : ∑ i, affine Q1 Q0 (embed ((k.element ℝ).nodes i)) c * (k.element ℝ).shapes p i
      = affine Q1 Q0 p c := by
    have := congrFun (local_to_global_affine k Q1 Q0
      (fun i => affine Q1 Q0 (straight k (embed ((k.element ℝ).nodes i)))) (fun i => rfl) p) c
    simpa only [localToGlobal, hs, id] using this
  simp only [localToGlobal, h, add_mul, Finset.sum_add_distrib, h1]
  congr 1
  simp only [Finset.sum_mul]
  rw [Finset.sum_comm]
  refine Finset.sum_congr rfl fun a _ => ?_
  rw [Finset.sum_comm]
  refine Finset.sum_congr rfl fun b _ => ?_
  have := reproduces_product k hk a b p
  simp only [real] at this
  rw [← this, Finset.mul_sum]
  exact Finset.sum_congr rfl fun i _ => by ring

/-- **C60.** The 27-node hexahedron reproduces every function that is at most quadratic along each axis. -/
theorem hexahedron27_triquadratic (f : Point ℝ 3 → ℝ)
    (h : ∀ p j, ∃ a b c : ℝ, ∀ t, f (Function.update p j t) = a + b * t + c * t ^ 2) :
    Reproduces (hexahedron27 ℝ).shapes (real (hexahedron27 ℝ).nodes) f := by
  refine Quadratic.reproduces fun p j t => ?_
  obtain ⟨a, b, c, hf⟩ := h p j
  have hp : ∀ s, put p j s = Function.update p j s := by
    intro s
    funext k
    by_cases hk : k = j
    · subst hk; simp [put]
    · simp [put, hk]
  simp only [hp, hf]
  ring

/-- Hypotheses met by `x² y² z`. -/
example (p : Point ℝ 3) : ∑ i, (hexahedron27 ℝ).shapes p i *
    (fun q : Point ℝ 3 => q 0 ^ 2 * q 1 ^ 2 * q 2) (real (hexahedron27 ℝ).nodes i)
    = p 0 ^ 2 * p 1 ^ 2 * p 2 := by
  refine hexahedron27_triquadratic (fun q => q 0 ^ 2 * q 1 ^ 2 * q 2) (fun p j => ?_) p
  fin_cases j
  · exact ⟨0, 0, p 1 ^ 2 * p 2, fun t => by
      simp only [Function.update, Fin.zero_eta, Fin.isValue, eq_rec_constant, Fin.reduceEq, one_ne_zero,
        dite_eq_ite, reduceIte]
      ring⟩
  · exact ⟨0, 0, p 0 ^ 2 * p 2, fun t => by
      simp only [Function.update, Fin.mk_one, Fin.isValue, eq_rec_constant, Fin.reduceEq, zero_ne_one,
        dite_eq_ite, reduceIte]
      ring⟩
  · exact ⟨0, p 0 ^ 2 * p 1 ^ 2, 0, fun t => by
      simp only [Function.update, Fin.reduceFinMk, Fin.isValue, eq_rec_constant, Fin.reduceEq,
        dite_eq_ite, reduceIte]
      ring⟩

end MiniCFD.Shape
