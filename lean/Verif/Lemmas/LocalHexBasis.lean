import Verif.Lemmas.LocalHex
import Mathlib.Analysis.Calculus.Deriv.Polynomial

/-! # Derivatives of the interpolation basis and of the geometry; matrix algebra -/

namespace MiniCFD.LocalHex

open MiniCFD.Shape MiniCFD.Cell MiniCFD.Spec.Shape MiniCFD.Spec.LocalHex MiniCFD.Lagrange MiniCFD.Spec.Lagrange
open Polynomial (derivative)

variable {P Q R K : Nat}

/-! ### The basis -/

theorem lineDerivatives_hasDerivAt {P : Nat} {nodes : Fin (P + 1) → ℝ} (h : Function.Injective nodes) (k : Nat)
    (hk : k + 1 ≤ P) (i : Fin (P + 1)) (x : ℝ) :
    HasDerivAt (fun x => lineDerivatives nodes k x i) (lineDerivatives nodes (k + 1) x i) x := by
  have e : (fun x => lineDerivatives nodes k x i) = fun x => (derivative^[k] (basisPoly nodes i)).eval x :=
    funext fun x => lineDerivatives_eq h k (by omega) x i
  rw [e, lineDerivatives_eq h (k + 1) hk, Function.iterate_succ_apply']
  exact Polynomial.hasDerivAt _ _

/-- The nodes of each line are distinct. -/
structure Basis.Distinct (b : Basis P Q R) : Prop where
  x : Function.Injective b.nx
  y : Function.Injective b.ny
  z : Function.Injective b.nz

/-- The derivatives of the `m`-th function to the given orders. -/
noncomputable def Basis.dv (b : Basis P Q R) (i j k : Nat) (p : Point ℝ 3) (m : Fin (size P Q R)) : ℝ :=
  Lagrange.row (hexDerivatives b.nx b.ny b.nz i j k (p 0) (p 1) (p 2)) m

theorem tensor_row {I J L : Nat} (vx : Fin I → ℝ) (vy : Fin J → ℝ) (vz : Fin L → ℝ) (m : Fin (I * J * L)) :
    Lagrange.row (tensorLoop vx vy vz) m = vx ⟨(unindex3 J L m).1, (index_unindex m.2).1⟩
      * vy ⟨(unindex3 J L m).2.1, (index_unindex m.2).2.1⟩
      * vz ⟨(unindex3 J L m).2.2, (index_unindex m.2).2.2.1⟩ := by
  have h := tensorLoop_get vx vy vz ⟨(unindex3 J L m).1, (index_unindex m.2).1⟩
    ⟨(unindex3 J L m).2.1, (index_unindex m.2).2.1⟩ ⟨(unindex3 J L m).2.2, (index_unindex m.2).2.2.1⟩
  simp only [(index_unindex m.2).2.2.2] at h
  rw [Lagrange.row, h, Option.getD_some]

theorem Basis.dv_eq (b : Basis P Q R) (i j k : Nat) (p : Point ℝ 3) (m : Fin (size P Q R)) :
    b.dv i j k p m = lineDerivatives b.nx i (p 0) ⟨(unindex3 (Q + 1) (R + 1) m).1, (index_unindex m.2).1⟩
      * lineDerivatives b.ny j (p 1) ⟨(unindex3 (Q + 1) (R + 1) m).2.1, (index_unindex m.2).2.1⟩
      * lineDerivatives b.nz k (p 2) ⟨(unindex3 (Q + 1) (R + 1) m).2.2, (index_unindex m.2).2.2.1⟩ :=
  tensor_row _ _ _ m

theorem Basis.dv_x {b : Basis P Q R} (hb : b.Distinct) {i : Nat} (hi : i + 1 ≤ P) (j k : Nat) (p : Point ℝ 3)
    (m : Fin (size P Q R)) : HasPartial (fun q => b.dv i j k q m) 0 (b.dv (i + 1) j k p m) p := by
  simp only [HasPartial, Basis.dv_eq, Function.update_self, ne_eq, Fin.reduceEq, not_false_eq_true,
    Function.update_of_ne, one_ne_zero, zero_ne_one]
  have h := lineDerivatives_hasDerivAt hb.x i hi ⟨(unindex3 (Q + 1) (R + 1) m).1, (index_unindex m.2).1⟩ (p 0)
  exact (h.mul_const _).mul_const _

theorem Basis.dv_y {b : Basis P Q R} (hb : b.Distinct) (i : Nat) {j : Nat} (hj : j + 1 ≤ Q) (k : Nat)
    (p : Point ℝ 3) (m : Fin (size P Q R)) :
    HasPartial (fun q => b.dv i j k q m) 1 (b.dv i (j + 1) k p m) p := by
  simp only [HasPartial, Basis.dv_eq, Function.update_self, ne_eq, Fin.reduceEq, not_false_eq_true,
    Function.update_of_ne, one_ne_zero, zero_ne_one]
  have h := lineDerivatives_hasDerivAt hb.y j hj ⟨(unindex3 (Q + 1) (R + 1) m).2.1, (index_unindex m.2).2.1⟩ (p 1)
  exact (h.const_mul _).mul_const _

theorem Basis.dv_z {b : Basis P Q R} (hb : b.Distinct) (i j : Nat) {k : Nat} (hk : k + 1 ≤ R)
    (p : Point ℝ 3) (m : Fin (size P Q R)) :
    HasPartial (fun q => b.dv i j k q m) 2 (b.dv i j (k + 1) p m) p := by
  simp only [HasPartial, Basis.dv_eq, Function.update_self, ne_eq, Fin.reduceEq, not_false_eq_true,
    Function.update_of_ne, one_ne_zero, zero_ne_one]
  have h := lineDerivatives_hasDerivAt hb.z k hk ⟨(unindex3 (Q + 1) (R + 1) m).2.2, (index_unindex m.2).2.2.1⟩ (p 2)
  exact h.const_mul _

theorem Basis.values_eq {b : Basis P Q R} (hb : b.Distinct) (p : Point ℝ 3) : b.values p = b.dv 0 0 0 p := by
  funext m
  rw [Basis.dv_eq, line_zeroth hb.x, line_zeroth hb.y, line_zeroth hb.z]
  exact tensor_row _ _ _ m

/-- The table of first derivatives. -/
noncomputable def Basis.g1 (b : Basis P Q R) (p : Point ℝ 3) : Matrix (Fin 3) (Fin (size P Q R)) ℝ :=
  Matrix.of ![b.dv 1 0 0 p, b.dv 0 1 0 p, b.dv 0 0 1 p]

/-- The table of second derivatives. -/
noncomputable def Basis.g2 (b : Basis P Q R) (p : Point ℝ 3) : Matrix (Fin 6) (Fin (size P Q R)) ℝ :=
  Matrix.of ![b.dv 2 0 0 p, b.dv 1 1 0 p, b.dv 1 0 1 p, b.dv 0 2 0 p, b.dv 0 1 1 p, b.dv 0 0 2 p]

theorem Basis.gradients_eq (b : Basis P Q R) (p : Point ℝ 3) :
    b.gradients p = if 1 ≤ P ∧ 1 ≤ Q ∧ 1 ≤ R then some (b.g1 p) else none := by
  by_cases h1 : 1 ≤ P <;> by_cases h2 : 1 ≤ Q <;> by_cases h3 : 1 ≤ R <;>
    simp [Basis.gradients, Basis.derivatives, h1, h2, h3, Basis.g1] <;> exact ⟨rfl, rfl, rfl⟩

theorem Basis.hessians_eq (b : Basis P Q R) (p : Point ℝ 3) :
    b.hessians p = if 2 ≤ P ∧ 2 ≤ Q ∧ 2 ≤ R then some (b.g2 p) else none := by
  by_cases h1 : 2 ≤ P <;> by_cases h2 : 2 ≤ Q <;> by_cases h3 : 2 ≤ R
  · simp [Basis.hessians, Basis.derivatives, h1, h2, h3, show 1 ≤ P by omega, show 1 ≤ Q by omega,
      show 1 ≤ R by omega, Basis.g2]
    exact ⟨rfl, rfl, rfl, rfl, rfl, rfl⟩
  all_goals
    simp only [Basis.hessians, Basis.derivatives, h1, h2, h3, Option.bind_eq_bind, and_true, true_and, and_false,
      false_and, if_false, Option.bind_none, Nat.zero_le]
    try (simp)

/-- Components of the polynomial and their derivatives. -/
noncomputable def poly (b : Basis P Q R) (coeff : Coeff K (size P Q R)) (k : Fin K) (p : Point ℝ 3) : ℝ :=
  coeff.mulVec (b.values p) k

theorem outer_apply {s N : Nat} (basis : Matrix (Fin s) (Fin N) ℝ) (coeff : Coeff K N) (j : Fin s) (k : Fin K) :
    outer basis coeff j k = ∑ m, basis j m * coeff k m := by
  have h : ∀ (l : List (Fin N)) (acc : Matrix (Fin s) (Fin K) ℝ),
      l.foldl (fun acc m => acc + Matrix.of fun j k => basis j m * coeff k m) acc j k
        = acc j k + (l.map fun m => basis j m * coeff k m).sum := by
    intro l
    induction l with
    | nil => intro acc; simp
    | cons m l ih => intro acc; rw [List.foldl_cons, ih]; simp [add_assoc]
  rw [outer, h, ← List.ofFn_eq_map, List.sum_ofFn]
  simp

theorem poly_partial {b : Basis P Q R} (hb : b.Distinct) (h1 : 1 ≤ P ∧ 1 ≤ Q ∧ 1 ≤ R)
    (coeff : Coeff K (size P Q R)) (k : Fin K) (p : Point ℝ 3) (j : Fin 3) :
    HasPartial (poly b coeff k) j (outer (b.g1 p) coeff j k) p := by
  have hm : ∀ m, HasPartial (fun q => b.dv 0 0 0 q m) j (b.g1 p j m) p := by
    intro m
    fin_cases j
    · exact Basis.dv_x hb h1.1 0 0 p m
    · exact Basis.dv_y hb 0 h1.2.1 0 p m
    · exact Basis.dv_z hb 0 0 h1.2.2 p m
  have h := HasDerivAt.fun_sum (u := Finset.univ) fun m (_ : m ∈ Finset.univ) => (hm m).const_mul (coeff k m)
  rw [outer_apply]
  have e : poly b coeff k = fun q => ∑ m, coeff k m * b.dv 0 0 0 q m := by
    funext q; simp only [poly, Basis.values_eq hb]; rfl
  rw [e]
  exact HasDerivAt.congr_deriv h (Finset.sum_congr rfl fun m _ => mul_comm _ _)

theorem grad_partial {b : Basis P Q R} (hb : b.Distinct) (h2 : 2 ≤ P ∧ 2 ≤ Q ∧ 2 ≤ R)
    (coeff : Coeff K (size P Q R)) (k : Fin K) (p : Point ℝ 3) (i j : Fin 3) :
    HasPartial (fun q => outer (b.g1 q) coeff i k) j (outer (b.g2 p) coeff (sym2 i j) k) p := by
  have hm : ∀ m, HasPartial (fun q => b.g1 q i m) j (b.g2 p (sym2 i j) m) p := by
    intro m
    have p1 : 0 + 1 ≤ P := by omega
    have q1 : 0 + 1 ≤ Q := by omega
    have r1 : 0 + 1 ≤ R := by omega
    fin_cases i <;> fin_cases j
    · exact Basis.dv_x hb h2.1 0 0 p m
    · exact Basis.dv_y hb 1 q1 0 p m
    · exact Basis.dv_z hb 1 0 r1 p m
    · exact Basis.dv_x hb p1 1 0 p m
    · exact Basis.dv_y hb 0 h2.2.1 0 p m
    · exact Basis.dv_z hb 0 1 r1 p m
    · exact Basis.dv_x hb p1 0 1 p m
    · exact Basis.dv_y hb 0 q1 1 p m
    · exact Basis.dv_z hb 0 0 h2.2.2 p m
  simp only [outer_apply]
  exact HasDerivAt.fun_sum (u := Finset.univ) fun m (_ : m ∈ Finset.univ) => (hm m).mul_const (coeff k m)

theorem unpack_apply (h : Fin 6 → ℝ) (a b : Fin 3) : unpack h a b = h (sym2 a b) := by
  fin_cases a <;> fin_cases b <;> rfl

/-! ### The geometry -/

/-- A geometry made of one of the hexahedral classes. -/
structure Geometry.Hex (g : Geometry) : Prop where
  cell : Cell.cell g.kind = some g.element
  hex : g.kind.Hexahedral

theorem Geometry.map_partial {g : Geometry} (hg : g.Hex) (p : Point ℝ 3) (a c : Fin 3) :
    HasPartial (fun q => g.map q c) a (g.jac p a c) p := jacobian_partial_cell hg.cell g.coords p a c

theorem Geometry.data {g : Geometry} (hg : g.Hex) {p : Point ℝ 3} (h0 : (g.jac p).det ≠ 0) :
    ∃ (Dg : Point ℝ 3 → Fin 3 → ℝ) (Dh : Fin 6 → ℝ) (dJ : Fin 3 → Mat),
      g.jacGrad p = some dJ ∧ g.detGrad p = some (Dg p) ∧ g.detHess p = some Dh ∧
      (∀ q a, HasPartial (fun q => (g.jac q).det) a (Dg q a) q) ∧
      (∀ a b, HasPartial (fun q => Dg q a) b (Dh (sym2 a b)) p) ∧
      ∀ a b c, HasPartial (fun q => g.jac q a c) b (dJ b a c) p := by
  have h1 := (det_gradient_defined g.kind g.element g.coords p).2 ⟨hg.hex, h0⟩
  obtain ⟨h, hh⟩ : ∃ h, Cell.hessians g.kind p = some h := by
    cases hh : Cell.hessians g.kind p with
    | none => rw [hh] at h1; simp [detGradient] at h1
    | some h => exact ⟨h, rfl⟩
  obtain ⟨H, T, s, hH, hT⟩ := smooth_of_hessians hg.cell hh
  obtain ⟨v, hv⟩ := Option.isSome_iff_exists.1 h1
  have h2 := (det_hessian hg.cell g.coords p).1
  rw [h1] at h2
  obtain ⟨w, hw⟩ := Option.isSome_iff_exists.1 h2
  refine ⟨fun q a => D1 (g.jac q) (jacobianGradient g.coords (H q) a), w, jacobianGradient g.coords (H p),
    by simp [Geometry.jacGrad, hH], ?_, hw, ?_, ?_, ?_⟩
  · rw [hH] at hv
    rw [Geometry.detGrad, hH, hv]
    exact congrArg some (funext fun a => detGradient_apply hv a)
  · exact fun q a => det_partial s g.coords a q
  · intro a b
    rw [hH, hT] at hw
    rw [detHessian_apply hw]
    exact D1_partial s g.coords a b p
  · exact fun a b c => s.jac g.coords b a c p

/-! ### Matrices -/

/-- The rows that `GetGlobalHessian` collects are those of `J H`, when `H` solves the equations of the chain
rule. -/
theorem rows_eq {J S H : Mat} (hJ : J.det ≠ 0) {r : Fin 3 → Fin 3 → ℝ}
    (h1 : ∀ b, J.mulVec (S b) = r b) (h2 : ∀ b, J.mulVec ((J * H) b) = r b) : J⁻¹ * S = H := by
  have hu : IsUnit J.det := isUnit_iff_ne_zero.2 hJ
  have : S = J * H := by
    funext b
    have h := (h1 b).trans (h2 b).symm
    have := congrArg J⁻¹.mulVec h
    rwa [Matrix.mulVec_mulVec, Matrix.mulVec_mulVec, Matrix.nonsing_inv_mul _ hu, Matrix.one_mulVec,
      Matrix.one_mulVec] at this
  rw [this, Matrix.nonsing_inv_mul_cancel_left _ _ hu]

theorem solve {J : Mat} (hJ : J.det ≠ 0) {g w : Fin 3 → ℝ} (h : J.mulVec g = w) : g = J⁻¹.mulVec w := by
  have hu : IsUnit J.det := isUnit_iff_ne_zero.2 hJ
  rw [← h, Matrix.mulVec_mulVec, Matrix.nonsing_inv_mul _ hu, Matrix.one_mulVec]

end MiniCFD.LocalHex
