import Verif.Lemmas.Cell
import Verif.Props.Shape
import Verif.Spec.Frame

/-!
# C42: Jacobians and their determinants; C61: `GlobalToLocal`; C62: normal frames; C63: outward normals
-/

namespace MiniCFD.Cell

open MiniCFD.Shape MiniCFD.Spec.Shape Matrix

variable {n : Nat}

/-! ### C42 -/

/-- **C42.** The rows of `LocalToJacobian` are the partial derivatives of `LocalToGlobal`, for all elements
and all positions of the nodes. -/
theorem jacobian_partial (k : Kind) {D : Nat} (coords : Fin k.count → Point ℝ D) (p : Point ℝ k.dim)
    (j : Fin k.dim) (c : Fin D) :
    HasPartial (fun q => localToGlobal (k.element ℝ) coords q c) j
      (jacobian (k.element ℝ) coords p j c) p := by
  have f := shape_family k
  exact deriv_localToGlobal (φ := straight k) ⟨f.cardinal, f.unity, f.linear, fun i j p => f.gradient p i j⟩
    coords j c p

/-- The hexahedra. -/
def _root_.MiniCFD.Shape.Kind.Hexahedral : Kind → Prop
  | .hexahedron8 | .hexahedron20 | .hexahedron26 | .hexahedron27 => True
  | _ => False

/-- **C42.** `LocalToJacobianDeterminantGradient` has a defined result exactly for hexahedra, at the points
where the Jacobian is invertible. -/
theorem det_gradient_defined (k : Kind) (e : Element ℝ 3 k.count) (coords : Fin k.count → Point ℝ 3)
    (p : Point ℝ 3) : (detGradient e coords (hessians k p) p).isSome
      ↔ k.Hexahedral ∧ (jacobianMatrix e coords p).det ≠ 0 := by
  have h : ∀ h : Fin k.count → Fin 6 → ℝ, (detGradient e coords (some h) p).isSome
      ↔ (jacobianMatrix e coords p).det ≠ 0 := by
    intro h
    simp only [detGradient, Option.bind_eq_bind, Option.bind_some]
    split
    · rename_i hd; simp [hd]
    · rename_i hd; simp [hd]
  have hn : (detGradient e coords none p).isSome = false := rfl
  cases k <;> simp only [hessians, Kind.Hexahedral, hn, true_and, false_and, iff_false] <;>
    first | exact h _ | simp

/-- **C42.** Where it is defined, `LocalToJacobianDeterminantGradient` returns the gradient of the
determinant of the Jacobian. -/
theorem det_gradient {k : Kind} {e : Element ℝ 3 k.count} (he : cell k = some e)
    (coords : Fin k.count → Point ℝ 3) (p : Point ℝ 3) {g : Fin 3 → ℝ}
    (hg : detGradient e coords (hessians k p) p = some g) (j : Fin 3) :
    HasPartial (fun q => (jacobianMatrix e coords q).det) j (g j) p := by
  cases hh : hessians k p with
  | none => rw [hh] at hg; exact absurd hg (by simp [detGradient])
  | some h =>
    obtain ⟨H, T, s, hH, -⟩ := smooth_of_hessians he hh
    rw [hH] at hg
    rw [detGradient_apply hg]
    exact det_partial s coords j p

/-- **C42.** `LocalToJacobianDeterminantHessian` returns the second derivatives of the determinant, in the
slots of the symmetric indices, and is defined where the gradient is. -/
theorem det_hessian {k : Kind} {e : Element ℝ 3 k.count} (he : cell k = some e)
    (coords : Fin k.count → Point ℝ 3) (p : Point ℝ 3) :
    (detHessian e coords (hessians k p) (thirds k p) p).isSome
        = (detGradient e coords (hessians k p) p).isSome ∧
      ∀ v, detHessian e coords (hessians k p) (thirds k p) p = some v → ∀ i j,
        HasPartial2 (fun q => (jacobianMatrix e coords q).det) i j (v (sym2 i j)) p := by
  cases hh : hessians k p with
  | none =>
    have ht : thirds k p = none := by
      cases k <;> first | rfl | (simp only [hessians, reduceCtorEq] at hh)
    rw [ht]
    exact ⟨rfl, fun v hv => absurd hv (by simp [detHessian])⟩
  | some h =>
    obtain ⟨H, T, s, hH, hT⟩ := smooth_of_hessians he hh
    rw [← hh, hH, hT]
    constructor
    · simp only [detHessian, detGradient, Option.bind_eq_bind, Option.bind_some]
      split <;> rfl
    · intro v hv i j
      refine ⟨_, det_partial s coords i, ?_⟩
      rw [detHessian_apply hv]
      exact D1_partial s coords i j p

/-! ### C61 -/

/-- The elements whose straight version is an affine image of the local coordinates: all but pyramids. -/
def _root_.MiniCFD.Shape.Kind.Pyramidal : Kind → Prop
  | .pyramid5 | .pyramid13 | .pyramid14 => True
  | _ => False

theorem local_to_global_straight {k : Kind} (hk : ¬ k.Pyramidal) {e : Element ℝ 3 k.count}
    (he : cell k = some e) (A : Fin 3 → Fin 3 → ℝ) (b : Fin 3 → ℝ) (coords : Fin k.count → Point ℝ 3)
    (h : ∀ i, coords i = affine A b (embed (e.nodes i))) (p : Point ℝ 3) :
    localToGlobal e coords p = affine A b p := by
  cases k <;> simp only [cell, reduceCtorEq] at he
  · cases he; exact local_to_global_affine .tetrahedron4 A b coords h p
  · cases he; exact local_to_global_affine .tetrahedron10 A b coords h p
  · exact absurd trivial hk
  · exact absurd trivial hk
  · exact absurd trivial hk
  · cases he; exact local_to_global_affine .wedge6 A b coords h p
  · cases he; exact local_to_global_affine .wedge15 A b coords h p
  · cases he; exact local_to_global_affine .wedge18 A b coords h p
  · cases he; exact local_to_global_affine .hexahedron8 A b coords h p
  · cases he; exact local_to_global_affine .hexahedron20 A b coords h p
  · cases he; exact local_to_global_affine .hexahedron26 A b coords h p
  · cases he; exact local_to_global_affine .hexahedron27 A b coords h p

theorem jacobian_partial_cell {k : Kind} {e : Element ℝ 3 k.count} (he : cell k = some e)
    (coords : Fin k.count → Point ℝ 3) (p : Point ℝ 3) (j c : Fin 3) :
    HasPartial (fun q => localToGlobal e coords q c) j (jacobian e coords p j c) p := by
  cases k <;> simp only [cell, reduceCtorEq] at he
  · cases he; exact jacobian_partial .tetrahedron4 coords p j c
  · cases he; exact jacobian_partial .tetrahedron10 coords p j c
  · cases he; exact jacobian_partial .pyramid5 coords p j c
  · cases he; exact jacobian_partial .pyramid13 coords p j c
  · cases he; exact jacobian_partial .pyramid14 coords p j c
  · cases he; exact jacobian_partial .wedge6 coords p j c
  · cases he; exact jacobian_partial .wedge15 coords p j c
  · cases he; exact jacobian_partial .wedge18 coords p j c
  · cases he; exact jacobian_partial .hexahedron8 coords p j c
  · cases he; exact jacobian_partial .hexahedron20 coords p j c
  · cases he; exact jacobian_partial .hexahedron26 coords p j c
  · cases he; exact jacobian_partial .hexahedron27 coords p j c

theorem affine_partial (A : Fin 3 → Fin 3 → ℝ) (b : Fin 3 → ℝ) (p : Fin 3 → ℝ) (j c : Fin 3) :
    HasPartial (fun q => affine A b q c) j (A c j) p := by
  have h : (fun s => affine A b (Function.update p j s) c)
      = fun s => A c j * s + (affine A b p c - A c j * p j) := by
    funext s
    simp only [affine, Fin.sum_univ_three]
    fin_cases j <;> simp [Function.update] <;> ring
  rw [HasPartial, h]
  simpa using ((hasDerivAt_id (p j)).const_mul (A c j)).add_const (affine A b p c - A c j * p j)

/-- The Jacobian of a straight element. -/
theorem jacobian_straight {k : Kind} (hk : ¬ k.Pyramidal) {e : Element ℝ 3 k.count}
    (he : cell k = some e) (A : Fin 3 → Fin 3 → ℝ) (b : Fin 3 → ℝ) (coords : Fin k.count → Point ℝ 3)
    (h : ∀ i, coords i = affine A b (embed (e.nodes i))) (p : Point ℝ 3) (j c : Fin 3) :
    jacobian e coords p j c = A c j := by
  have h1 := jacobian_partial_cell he coords p j c
  have h2 : (fun q => localToGlobal e coords q c) = fun q => affine A b q c := by
    funext q; rw [local_to_global_straight hk he A b coords h]
  rw [h2] at h1
  exact HasDerivAt.unique h1 (affine_partial A b p j c)

/-- **C61.** On a straight, non-degenerate tetrahedron, wedge or hexahedron of any order, `GlobalToLocal`
inverts `LocalToGlobal` exactly, from any hint, after at most two rounds. -/
theorem global_to_local_straight {k : Kind} (hk : ¬ k.Pyramidal) {e : Element ℝ 3 k.count}
    (he : cell k = some e) (A : Fin 3 → Fin 3 → ℝ) (b : Fin 3 → ℝ) (hA : (Matrix.of A).det ≠ 0)
    (coords : Fin k.count → Point ℝ 3) (h : ∀ i, coords i = affine A b (embed (e.nodes i)))
    (rounds : Nat) (hr : 2 ≤ rounds) (hint x : Point ℝ 3) :
    globalToLocal e coords rounds (localToGlobal e coords x) hint = some x := by
  obtain ⟨fuel, rfl⟩ := Nat.exists_eq_add_of_le' hr
  have haff : ∀ p, localToGlobal e coords p = affine A b p := local_to_global_straight hk he A b coords h
  have hmul : ∀ p, affine A b p = (Matrix.of A).mulVec p + b := fun p => rfl
  obtain ⟨y, h1, h2⟩ := root_of_affine (f := fun y => localToGlobal e coords y - localToGlobal e coords x)
    (jac := jacobianMatrix e coords) (xtol := 1 / 100000) (by norm_num) (Matrix.of A).transpose
    (by rw [Matrix.det_transpose]; exact hA)
    (fun p => by ext r c; exact jacobian_straight hk he A b coords h p r c)
    (fun p q => by
      simp only [haff, hmul, Matrix.transpose_transpose, Matrix.mulVec_sub]
      abel) fuel hint
  rw [globalToLocal, h1]
  simp only [haff, hmul, add_sub_add_right_eq_sub, ← Matrix.mulVec_sub] at h2
  rw [Option.some_inj, ← sub_eq_zero]
  have hu : IsUnit (Matrix.of A).det := isUnit_iff_ne_zero.2 hA
  have := congrArg (Matrix.of A)⁻¹.mulVec h2
  rwa [Matrix.mulVec_mulVec, Matrix.nonsing_inv_mul _ hu, Matrix.one_mulVec, Matrix.mulVec_zero] at this

/-- Hypotheses met: the unit 8-node hexahedron stretched by two. -/
example (coords : Fin 8 → Point ℝ 3)
    (h : coords = fun i => affine (fun r c : Fin 3 => if r = c then 2 else 0) 0 (embed ((hexahedron8 ℝ).nodes i)))
    (hint x : Point ℝ 3) :
    globalToLocal (hexahedron8 ℝ) coords 2 (localToGlobal (hexahedron8 ℝ) coords x) hint = some x := by
  refine global_to_local_straight (k := .hexahedron8) (fun h => h) rfl
    (fun r c => if r = c then 2 else 0) 0 ?_ coords (fun i => by rw [h]) 2 le_rfl hint x
  have : (Matrix.of fun r c : Fin 3 => if r = c then (2 : ℝ) else 0) = Matrix.diagonal fun _ => 2 := by
    ext r c; simp [Matrix.diagonal]
  rw [this, Matrix.det_diagonal]
  norm_num

/-- **C61.** On any element: whatever `GlobalToLocal` returns is the result of a Newton step, from a point
with invertible Jacobian, that is at most `1e-5` long. -/
theorem global_to_local_some {e : Element ℝ 3 n} {coords : Fin n → Point ℝ 3} {rounds : Nat}
    {target hint y : Point ℝ 3} (h : globalToLocal e coords rounds target hint = some y) :
    ∃ z, (jacobianMatrix e coords z).det ≠ 0 ∧
      (∀ c, localToGlobal e coords z c + ∑ r, (y r - z r) * jacobian e coords z r c = target c) ∧
      norm (z - y) ≤ 1 / 100000 := by
  obtain ⟨z, h1, h2⟩ := root_some h
  obtain ⟨h3, h4⟩ := newtonStep_eq h1
  refine ⟨z, h4, fun c => ?_, h2⟩
  have := congrFun h3 c
  simp only [Matrix.mulVec, dotProduct, Matrix.transpose_apply, Pi.sub_apply, jacobianMatrix,
    Matrix.of_apply, Fin.sum_univ_three] at this ⊢
  linear_combination -this

/-- **C61.** A hint that already is the answer is returned unchanged. -/
theorem global_to_local_hint {e : Element ℝ 3 n} {coords : Fin n → Point ℝ 3} {x : Point ℝ 3}
    (hd : (jacobianMatrix e coords x).det ≠ 0) (rounds : Nat) (hr : 1 ≤ rounds) :
    globalToLocal e coords rounds (localToGlobal e coords x) x = some x := by
  obtain ⟨fuel, rfl⟩ := Nat.exists_eq_add_of_le' hr
  exact root_at_root (by norm_num) fuel (sub_self _) hd

/-- **C61.** The number of rounds allowed does not change an answer. -/
theorem global_to_local_rounds {e : Element ℝ 3 n} {coords : Fin n → Point ℝ 3} {rounds rounds' : Nat}
    {target hint y : Point ℝ 3} (hr : rounds ≤ rounds')
    (h : globalToLocal e coords rounds target hint = some y) :
    globalToLocal e coords rounds' target hint = some y := by
  induction hr with
  | refl => exact h
  | step _ ih => exact root_mono ih

/-! ### C62 -/

theorem dot_self_nonneg' (v : Fin 3 → ℝ) : 0 ≤ v ⬝ᵥ v := by
  rw [vec3_dotProduct]
  exact add_nonneg (add_nonneg (mul_self_nonneg _) (mul_self_nonneg _)) (mul_self_nonneg _)

theorem norm_sq (v : Point ℝ 3) : norm v * norm v = v ⬝ᵥ v := Real.mul_self_sqrt (dot_self_nonneg' v)

theorem norm_pos {v : Point ℝ 3} (h : v ≠ 0) : 0 < norm v := by
  refine Real.sqrt_pos.2 (lt_of_le_of_ne (dot_self_nonneg' v) fun h0 => h ?_)
  have h1 : v 0 * v 0 + v 1 * v 1 + v 2 * v 2 = 0 := by rw [← vec3_dotProduct]; exact h0.symm
  have h2 : v 0 = 0 := by nlinarith [mul_self_nonneg (v 0), mul_self_nonneg (v 1), mul_self_nonneg (v 2)]
  have h3 : v 1 = 0 := by nlinarith [mul_self_nonneg (v 0), mul_self_nonneg (v 1), mul_self_nonneg (v 2)]
  have h4 : v 2 = 0 := by nlinarith [mul_self_nonneg (v 0), mul_self_nonneg (v 1), mul_self_nonneg (v 2)]
  funext i
  fin_cases i
  · exact h2
  · exact h3
  · exact h4

theorem normalized_eq {v : Point ℝ 3} (h : v ≠ 0) : normalized v = (norm v)⁻¹ • v := by
  rw [normalized, if_pos (norm_pos h)]
  funext i
  simp only [Pi.smul_apply, smul_eq_mul]
  ring

theorem normalized_dot_self {v : Point ℝ 3} (h : v ≠ 0) : normalized v ⬝ᵥ normalized v = 1 := by
  rw [normalized_eq h, smul_dotProduct, dotProduct_smul, ← norm_sq]
  have := (norm_pos h).ne'
  simp only [smul_eq_mul]
  field_simp

/-- **C62.** Wherever the surface element does not degenerate, the frame built from its Jacobian is
orthonormal and right-handed: normal, tangent, bitangent. -/
theorem frame_right_handed (e : Element ℝ 2 n) (coords : Fin n → Point ℝ 3) (p : Point ℝ 2)
    (h : crossProduct (jacobian e coords p 0) (jacobian e coords p 1) ≠ 0) :
    Spec.Frame.RightHanded (normalFrame e coords p).1 (normalFrame e coords p).2.1
      (normalFrame e coords p).2.2 := by
  have h0 : jacobian e coords p 0 ≠ 0 := fun h0 => h (by rw [h0, map_zero]; rfl)
  have hn := normalized_dot_self h
  have ht := normalized_dot_self h0
  have hnt : normalized (crossProduct (jacobian e coords p 0) (jacobian e coords p 1)) ⬝ᵥ
      normalized (jacobian e coords p 0) = 0 := by
    rw [normalized_eq h, normalized_eq h0, smul_dotProduct, dotProduct_smul, dotProduct_comm,
      dot_self_cross, smul_zero, smul_zero]
  refine ⟨hn, ht, ?_, hnt, dot_cross_self _ _, ?_, rfl⟩
  · simp only [normalFrame]
    rw [cross_dot_cross, hn, ht, hnt, dotProduct_comm (normalized (jacobian e coords p 0)), hnt]
    ring
  · rw [dotProduct_comm]; exact dot_self_cross _ _

/-- **C62.** The normal is orthogonal to the surface: to both tangent vectors; the tangent is along the
first of them, and the three vectors first tangent, second tangent, normal are positively oriented. -/
theorem frame_tangent (e : Element ℝ 2 n) (coords : Fin n → Point ℝ 3) (p : Point ℝ 2)
    (h : crossProduct (jacobian e coords p 0) (jacobian e coords p 1) ≠ 0) :
    (normalFrame e coords p).1 ⬝ᵥ jacobian e coords p 0 = 0 ∧
    (normalFrame e coords p).1 ⬝ᵥ jacobian e coords p 1 = 0 ∧
    0 < (normalFrame e coords p).1 ⬝ᵥ crossProduct (jacobian e coords p 0) (jacobian e coords p 1) ∧
    ∃ l : ℝ, 0 < l ∧ jacobian e coords p 0 = l • (normalFrame e coords p).2.1 := by
  have h0 : jacobian e coords p 0 ≠ 0 := fun h0 => h (by rw [h0, map_zero]; rfl)
  refine ⟨?_, ?_, ?_, norm (jacobian e coords p 0), norm_pos h0, ?_⟩
  · simp only [normalFrame]
    rw [normalized_eq h, smul_dotProduct, dotProduct_comm, dot_self_cross, smul_zero]
  · simp only [normalFrame]
    rw [normalized_eq h, smul_dotProduct, dotProduct_comm, dot_cross_self, smul_zero]
  · simp only [normalFrame]
    rw [normalized_eq h, smul_dotProduct, ← norm_sq]
    have := norm_pos h
    simp only [smul_eq_mul]
    positivity
  · simp only [normalFrame]
    rw [normalized_eq h0, smul_smul, mul_inv_cancel₀ (norm_pos h0).ne', one_smul]

/-- Hypotheses met: the reference triangle in the plane `z = 0`. -/
example : crossProduct
    (jacobian (triangle3 ℝ) (![![1, 0, 0], ![0, 1, 0], ![0, 0, 0]] : Fin 3 → Point ℝ 3) ![0, 0] 0)
    (jacobian (triangle3 ℝ) (![![1, 0, 0], ![0, 1, 0], ![0, 0, 0]] : Fin 3 → Point ℝ 3) ![0, 0] 1) ≠ 0 := by
  intro h
  have := congrFun h 2
  simp only [cross_apply, jacobian, triangle3, Fin.sum_univ_three, Fin.isValue, Matrix.cons_val,
    Pi.zero_apply] at this
  norm_num at this

/-! ### C63 -/

/-- The local axis of a face of a hexahedron, its side, and the local coordinates of its middle. -/
def faceAxis : Fin 6 → Fin 3 := ![2, 1, 0, 1, 0, 2]

/-- Which end of the axis the face is on. -/
def faceSide : Fin 6 → ℝ := ![-1, -1, 1, 1, -1, 1]

/-- The middle of the face. -/
def faceMiddle (f : Fin 6) : Point ℝ 3 := fun j => if j = faceAxis f then faceSide f else 0

/-- `u` is the outward unit normal of face `f` of a hexahedron at its middle: of length one, orthogonal to
the two directions within the face, and pointing out of the cell. -/
structure IsOutwardNormal (e : Element ℝ 3 n) (coords : Fin n → Point ℝ 3) (f : Fin 6) (u : Point ℝ 3) :
    Prop where
  unit : u ⬝ᵥ u = 1
  tangent : ∀ j, j ≠ faceAxis f → u ⬝ᵥ jacobian e coords (faceMiddle f) j = 0
  outward : 0 < faceSide f * (u ⬝ᵥ jacobian e coords (faceMiddle f) (faceAxis f))

theorem outwardNormal_eq (e : Element ℝ 3 n) (coords : Fin n → Point ℝ 3) (f : Fin 6) :
    outwardNormal e coords f
      = some (faceSide f • normalized (jacobian e coords (faceMiddle f) (faceAxis f))) := by
  have hm : ∀ f : Fin 6, faceMiddle f = ![![0, 0, -1], ![0, -1, 0], ![1, 0, 0], ![0, 1, 0], ![-1, 0, 0],
      ![0, 0, 1]] f := by
    intro f
    funext j
    fin_cases f <;> fin_cases j <;> simp [faceMiddle, faceAxis, faceSide]
  rw [hm]
  fin_cases f <;> simp [outwardNormal, faceAxis, faceSide]

/-- **C63 (partial).** `GetOutwardNormalVector` returns the outward unit normal when the edge direction
through the middle of the face is orthogonal to the face, as in a box.  Missing: skewed cells, for which
the claim is false, see `outward_normal_skewed`. -/
theorem outward_normal_partial (e : Element ℝ 3 n) (coords : Fin n → Point ℝ 3) (f : Fin 6)
    (h0 : jacobian e coords (faceMiddle f) (faceAxis f) ≠ 0)
    (h : ∀ j, j ≠ faceAxis f →
      jacobian e coords (faceMiddle f) (faceAxis f) ⬝ᵥ jacobian e coords (faceMiddle f) j = 0) :
    ∃ u, outwardNormal e coords f = some u ∧ IsOutwardNormal e coords f u := by
  have hs : faceSide f * faceSide f = 1 := by fin_cases f <;> simp [faceSide]
  refine ⟨_, outwardNormal_eq e coords f, ?_, ?_, ?_⟩
  · rw [smul_dotProduct, dotProduct_smul, normalized_dot_self h0]
    simpa using hs
  · intro j hj
    rw [smul_dotProduct, normalized_eq h0, smul_dotProduct, h j hj, smul_zero, smul_zero]
  · rw [smul_dotProduct, normalized_eq h0, smul_dotProduct, ← norm_sq]
    have := norm_pos h0
    simp only [smul_eq_mul]
    rw [← mul_assoc, hs]
    positivity

/-- A parallelepiped whose vertical edges lean to one side. -/
noncomputable def skewed : Fin 8 → Point ℝ 3 := fun i =>
  affine ![![1, 0, 1], ![0, 1, 0], ![0, 0, 1]] 0 (embed ((hexahedron8 ℝ).nodes i))

theorem skewed_jacobian (p : Point ℝ 3) (j c : Fin 3) :
    jacobian (hexahedron8 ℝ) skewed p j c = (![![1, 0, 1], ![0, 1, 0], ![0, 0, 1]] : Fin 3 → Fin 3 → ℝ) c j :=
  jacobian_straight (k := .hexahedron8) (fun h => h) rfl ![![1, 0, 1], ![0, 1, 0], ![0, 0, 1]] 0 skewed
    (fun _ => rfl) p j c

/-- The hypotheses of `det_gradient` and `det_hessian` are met at every point of this cell. -/
example (p : Point ℝ 3) :
    ∃ g, detGradient (hexahedron8 ℝ) skewed (hessians .hexahedron8 p) p = some g := by
  refine Option.isSome_iff_exists.1 ((det_gradient_defined .hexahedron8 _ _ _).2 ⟨trivial, ?_⟩)
  have h : jacobianMatrix (hexahedron8 ℝ) skewed p
      = (!![1, 0, 0; 0, 1, 0; 1, 0, 1] : Mat) := by
    ext j c
    refine (skewed_jacobian p j c).trans ?_
    fin_cases j <;> fin_cases c <;> rfl
  have h' : (!![1, 0, 0; 0, 1, 0; 1, 0, 1] : Mat).det ≠ 0 := by
    simp only [Matrix.det_fin_three, Matrix.of_apply, Matrix.cons_val', Matrix.cons_val, Fin.isValue]
    norm_num
  exact fun h0 => h' (by rw [← h]; exact h0)

/-- **C63 (refuted).** On a skewed parallelepiped the vector returned for the top face is not orthogonal to
that face. -/
theorem outward_normal_skewed :
    ¬ ∃ u, outwardNormal (hexahedron8 ℝ) skewed (5 : Fin 6) = some u ∧
      IsOutwardNormal (hexahedron8 ℝ) skewed 5 u := by
  rintro ⟨u, h1, h2⟩
  rw [outwardNormal_eq] at h1
  obtain rfl := Option.some.inj h1
  have h := h2.tangent 0 (by decide)
  have ha : faceAxis 5 = 2 := rfl
  have hj : ∀ c, jacobian (hexahedron8 ℝ) skewed (faceMiddle 5) (faceAxis 5) c
      = (![1, 0, 1] : Fin 3 → ℝ) c := by
    intro c
    rw [ha, skewed_jacobian]
    fin_cases c <;> simp
  have hn : jacobian (hexahedron8 ℝ) skewed (faceMiddle 5) (faceAxis 5) ≠ 0 := by
    intro h0
    have := congrFun h0 0
    rw [hj] at this
    simp at this
  rw [normalized_eq hn, smul_dotProduct, smul_dotProduct, vec3_dotProduct, hj, hj, hj, skewed_jacobian,
    skewed_jacobian, skewed_jacobian] at h
  have := (norm_pos hn).ne'
  simp [faceSide] at h
  exact this h

/-- A box. -/
noncomputable def box : Fin 8 → Point ℝ 3 := fun i =>
  affine ![![2, 0, 0], ![0, 1, 0], ![0, 0, 3]] 0 (embed ((hexahedron8 ℝ).nodes i))

/-- Hypotheses of `outward_normal_partial` met by a box. -/
example : ∃ u, outwardNormal (hexahedron8 ℝ) box (5 : Fin 6) = some u ∧
    IsOutwardNormal (hexahedron8 ℝ) box 5 u := by
  have hj : ∀ p (j c : Fin 3), jacobian (hexahedron8 ℝ) box p j c
      = (![![2, 0, 0], ![0, 1, 0], ![0, 0, 3]] : Fin 3 → Fin 3 → ℝ) c j :=
    fun p j c => jacobian_straight (k := .hexahedron8) (fun h => h) rfl
      ![![2, 0, 0], ![0, 1, 0], ![0, 0, 3]] 0 box (fun _ => rfl) p j c
  have ha : faceAxis 5 = 2 := rfl
  refine outward_normal_partial _ _ _ (fun h => ?_) (fun j hne => ?_)
  · have := congrFun h 2
    rw [hj, ha] at this
    simp at this
  · rw [vec3_dotProduct, hj, hj, hj, hj, hj, hj, ha]
    rw [ha] at hne
    fin_cases j
    · simp
    · simp
    · exact absurd rfl hne

end MiniCFD.Cell
