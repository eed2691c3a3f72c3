import Verif.Lemmas.ShapeHex
import Verif.Model.Cell
import Mathlib.LinearAlgebra.Matrix.Determinant.Basic

/-! # Derivatives of Jacobians and Newton's iteration -/

namespace MiniCFD.Cell

open MiniCFD.Shape MiniCFD.Spec.Shape

variable {n : Nat}

/-! ### Jacobian matrices -/

theorem deriv_localToGlobal {d D : Nat} {e : Element ℝ d n} {φ : Point ℝ d → Point ℝ d} (s : Sound e φ)
    (coords : Fin n → Point ℝ D) (j : Fin d) (c : Fin D) :
    Deriv (fun q => localToGlobal e coords q c) j (fun p => jacobian e coords p j c) := by
  intro p
  have h := HasDerivAt.fun_sum (u := Finset.univ)
    fun i (_ : i ∈ Finset.univ) => (s.grads i j p).const_mul (coords i c)
  refine HasDerivAt.congr_deriv h ?_
  exact Finset.sum_congr rfl fun i _ => mul_comm _ _

/-- Second and third derivatives of the shape functions. -/
structure Smooth (e : Element ℝ 3 n) (H : Point ℝ 3 → Fin n → Fin 6 → ℝ)
    (T : Point ℝ 3 → Fin n → Fin 10 → ℝ) : Prop where
  hess : ∀ i j k, Deriv (fun p => e.grads p i j) k (fun p => H p i (sym2 j k))
  third : ∀ i j k l, Deriv (fun p => H p i (sym2 j k)) l (fun p => T p i (sym3 j k l))

theorem smooth_of_hessians {k : Kind} {e : Element ℝ 3 k.count} (he : cell k = some e) {p : Point ℝ 3}
    {h : Fin k.count → Fin 6 → ℝ} (hh : hessians k p = some h) :
    ∃ H T, Smooth e H T ∧ (∀ q, hessians k q = some (H q)) ∧ ∀ q, thirds k q = some (T q) := by
  cases k <;> simp only [hessians, cell, reduceCtorEq] at hh he
  · cases he; exact ⟨hessians8, thirds8, ⟨hess8, third8⟩, fun _ => rfl, fun _ => rfl⟩
  · cases he; exact ⟨hessians20, thirds20, ⟨hess20, third20⟩, fun _ => rfl, fun _ => rfl⟩
  · cases he; exact ⟨hessians26, thirds26, ⟨hess26, third26⟩, fun _ => rfl, fun _ => rfl⟩
  · cases he; exact ⟨hessians27, thirds27, ⟨hess27, third27⟩, fun _ => rfl, fun _ => rfl⟩

theorem jacobianGradient_apply (coords : Fin n → Point ℝ 3) (h : Fin n → Fin 6 → ℝ) (k r c : Fin 3) :
    jacobianGradient coords h k r c = ∑ i, coords i c * h i (sym2 r k) := by
  fin_cases k <;> fin_cases r <;> rfl

theorem jacobianHessian_apply (coords : Fin n → Point ℝ 3) (t : Fin n → Fin 10 → ℝ) (k l r c : Fin 3) :
    jacobianHessian coords t (sym2 k l) r c = ∑ i, coords i c * t i (sym3 r k l) := by
  fin_cases k <;> fin_cases l <;> fin_cases r <;> rfl

variable {e : Element ℝ 3 n} {H : Point ℝ 3 → Fin n → Fin 6 → ℝ} {T : Point ℝ 3 → Fin n → Fin 10 → ℝ}

theorem Smooth.jac (s : Smooth e H T) (coords : Fin n → Point ℝ 3) (k r c : Fin 3) :
    Deriv (fun p => jacobianMatrix e coords p r c) k (fun p => jacobianGradient coords (H p) k r c) := by
  intro p
  have h := HasDerivAt.fun_sum (u := Finset.univ)
    fun i (_ : i ∈ Finset.univ) => (s.hess i r k p).mul_const (coords i c)
  refine HasDerivAt.congr_deriv h ?_
  simp only [jacobianGradient_apply]
  exact Finset.sum_congr rfl fun i _ => mul_comm _ _

theorem Smooth.grad (s : Smooth e H T) (coords : Fin n → Point ℝ 3) (k l r c : Fin 3) :
    Deriv (fun p => jacobianGradient coords (H p) k r c) l
      (fun p => jacobianHessian coords (T p) (sym2 k l) r c) := by
  intro p
  have h := HasDerivAt.fun_sum (u := Finset.univ)
    fun i (_ : i ∈ Finset.univ) => (s.third i r k l p).const_mul (coords i c)
  simp only [jacobianGradient_apply, jacobianHessian_apply]
  exact h

/-! ### The determinant -/

/-- The derivative of the determinant at `M` along `A`. -/
noncomputable def D1 (M A : Mat) : ℝ := (M.adjugate * A).trace

/-- The second derivative of the determinant at `M` along `A` and `B`. -/
def D2 (M A B : Mat) : ℝ :=
  M 0 0 * (A 1 1 * B 2 2 + B 1 1 * A 2 2 - A 1 2 * B 2 1 - B 1 2 * A 2 1)
  + M 0 1 * (A 1 2 * B 2 0 + B 1 2 * A 2 0 - A 1 0 * B 2 2 - B 1 0 * A 2 2)
  + M 0 2 * (A 1 0 * B 2 1 + B 1 0 * A 2 1 - A 1 1 * B 2 0 - B 1 1 * A 2 0)
  + M 1 0 * (A 0 2 * B 2 1 + B 0 2 * A 2 1 - A 0 1 * B 2 2 - B 0 1 * A 2 2)
  + M 1 1 * (A 0 0 * B 2 2 + B 0 0 * A 2 2 - A 0 2 * B 2 0 - B 0 2 * A 2 0)
  + M 1 2 * (A 0 1 * B 2 0 + B 0 1 * A 2 0 - A 0 0 * B 2 1 - B 0 0 * A 2 1)
  + M 2 0 * (A 0 1 * B 1 2 + B 0 1 * A 1 2 - A 0 2 * B 1 1 - B 0 2 * A 1 1)
  + M 2 1 * (A 0 2 * B 1 0 + B 0 2 * A 1 0 - A 0 0 * B 1 2 - B 0 0 * A 1 2)
  + M 2 2 * (A 0 0 * B 1 1 + B 0 0 * A 1 1 - A 0 1 * B 1 0 - B 0 1 * A 1 0)

theorem D1_eq (M A : Mat) :
    D1 M A = A 0 0 * (M 1 1 * M 2 2 - M 1 2 * M 2 1) - A 0 1 * (M 1 0 * M 2 2 - M 1 2 * M 2 0)
      + A 0 2 * (M 1 0 * M 2 1 - M 1 1 * M 2 0) - A 1 0 * (M 0 1 * M 2 2 - M 0 2 * M 2 1)
      + A 1 1 * (M 0 0 * M 2 2 - M 0 2 * M 2 0) - A 1 2 * (M 0 0 * M 2 1 - M 0 1 * M 2 0)
      + A 2 0 * (M 0 1 * M 1 2 - M 0 2 * M 1 1) - A 2 1 * (M 0 0 * M 1 2 - M 0 2 * M 1 0)
      + A 2 2 * (M 0 0 * M 1 1 - M 0 1 * M 1 0) := by
  simp only [D1, Matrix.trace, Matrix.diag, Matrix.mul_apply, Fin.sum_univ_three,
    Matrix.adjugate_fin_three, Matrix.of_apply, Matrix.cons_val]
  ring

theorem trace_inv {M : Mat} (h : M.det ≠ 0) (A : Mat) : M.det * (M⁻¹ * A).trace = D1 M A := by
  rw [Matrix.inv_def, Ring.inverse_eq_inv', Matrix.smul_mul, Matrix.trace_smul, smul_eq_mul, ← mul_assoc,
    mul_inv_cancel₀ h, one_mul, D1]

theorem D2_mul (M A B : Mat) :
    D2 M (M * A) (M * B) = M.det * (A.trace * B.trace - (A * B).trace) := by
  simp only [D2, Matrix.det_fin_three, Matrix.trace, Matrix.diag, Matrix.mul_apply, Fin.sum_univ_three]
  ring

theorem trace_inv2 {M : Mat} (h : M.det ≠ 0) (A B : Mat) :
    M.det * ((M⁻¹ * A).trace * (M⁻¹ * B).trace - (M⁻¹ * A * (M⁻¹ * B)).trace) = D2 M A B := by
  have hu : IsUnit M.det := isUnit_iff_ne_zero.2 h
  rw [← D2_mul, Matrix.mul_nonsing_inv_cancel_left _ _ hu, Matrix.mul_nonsing_inv_cancel_left _ _ hu]

/-- Matrices depending on one parameter. -/
theorem hasDerivAt_det {M : ℝ → Mat} {M' : Mat} {t : ℝ}
    (h : ∀ r c, HasDerivAt (fun s => M s r c) (M' r c) t) :
    HasDerivAt (fun s => (M s).det) (D1 (M t) M') t := by
  simp only [Matrix.det_fin_three]
  have h6 := (((((((h 0 0).mul (h 1 1)).mul (h 2 2)).sub (((h 0 0).mul (h 1 2)).mul (h 2 1))).sub
    (((h 0 1).mul (h 1 0)).mul (h 2 2))).add (((h 0 1).mul (h 1 2)).mul (h 2 0))).add
    (((h 0 2).mul (h 1 0)).mul (h 2 1))).sub (((h 0 2).mul (h 1 1)).mul (h 2 0))
  refine HasDerivAt.congr_deriv h6 ?_
  rw [D1_eq]
  simp only [Pi.mul_apply]
  ring

theorem hasDerivAt_minor {a b c d e : ℝ → ℝ} {a' b' c' d' e' t : ℝ} (ha : HasDerivAt a a' t)
    (hb : HasDerivAt b b' t) (hc : HasDerivAt c c' t) (hd : HasDerivAt d d' t) (he : HasDerivAt e e' t) :
    HasDerivAt (fun s => a s * (b s * c s - d s * e s))
      (a' * (b t * c t - d t * e t) + a t * (b' * c t + b t * c' - (d' * e t + d t * e'))) t :=
  ha.mul ((hb.mul hc).sub (hd.mul he))

theorem hasDerivAt_D1 {M A : ℝ → Mat} {M' A' : Mat} {t : ℝ}
    (h : ∀ r c, HasDerivAt (fun s => M s r c) (M' r c) t)
    (g : ∀ r c, HasDerivAt (fun s => A s r c) (A' r c) t) :
    HasDerivAt (fun s => D1 (M s) (A s)) (D1 (M t) A' + D2 (M t) (A t) M') t := by
  simp only [D1_eq]
  have m (a b c d e f i j k l : Fin 3) :=
    hasDerivAt_minor (g a b) (h c d) (h e f) (h i j) (h k l)
  refine HasDerivAt.congr_deriv (((((((((m 0 0 1 1 2 2 1 2 2 1).sub (m 0 1 1 0 2 2 1 2 2 0)).add
    (m 0 2 1 0 2 1 1 1 2 0)).sub (m 1 0 0 1 2 2 0 2 2 1)).add (m 1 1 0 0 2 2 0 2 2 0)).sub
    (m 1 2 0 0 2 1 0 1 2 0)).add (m 2 0 0 1 1 2 0 2 1 1)).sub (m 2 1 0 0 1 2 0 2 1 0)).add
    (m 2 2 0 0 1 1 0 1 1 0)) ?_
  simp only [D2]
  ring

theorem sym2_comm (j k : Fin 3) : sym2 j k = sym2 k j := by revert j k; decide

theorem det_partial (s : Smooth e H T) (coords : Fin n → Point ℝ 3) (k : Fin 3) :
    Deriv (fun q => (jacobianMatrix e coords q).det) k
      (fun p => D1 (jacobianMatrix e coords p) (jacobianGradient coords (H p) k)) := by
  intro p
  have h := hasDerivAt_det (M := fun t => jacobianMatrix e coords (Function.update p k t)) (t := p k)
    (M' := jacobianGradient coords (H p) k) fun r c => s.jac coords k r c p
  simp only [Function.update_eq_self] at h
  exact h

theorem D1_partial (s : Smooth e H T) (coords : Fin n → Point ℝ 3) (j k : Fin 3) :
    Deriv (fun p => D1 (jacobianMatrix e coords p) (jacobianGradient coords (H p) j)) k
      (fun p => D1 (jacobianMatrix e coords p) (jacobianHessian coords (T p) (sym2 j k))
        + D2 (jacobianMatrix e coords p) (jacobianGradient coords (H p) j)
          (jacobianGradient coords (H p) k)) := by
  intro p
  have h := hasDerivAt_D1 (M := fun t => jacobianMatrix e coords (Function.update p k t)) (t := p k)
    (A := fun t => jacobianGradient coords (H (Function.update p k t)) j)
    (M' := jacobianGradient coords (H p) k) (A' := jacobianHessian coords (T p) (sym2 j k))
    (fun r c => s.jac coords k r c p) (fun r c => s.grad coords j k r c p)
  simp only [Function.update_eq_self] at h
  exact h

theorem D2_comm (M A B : Mat) : D2 M A B = D2 M B A := by
  simp only [D2]; ring

theorem detHessian_apply {coords : Fin n → Point ℝ 3} {p : Point ℝ 3} {h : Fin n → Fin 6 → ℝ}
    {t : Fin n → Fin 10 → ℝ} {v : Fin 6 → ℝ}
    (hv : detHessian e coords (some h) (some t) p = some v) (j k : Fin 3) :
    v (sym2 j k) = D1 (jacobianMatrix e coords p) (jacobianHessian coords t (sym2 j k))
        + D2 (jacobianMatrix e coords p) (jacobianGradient coords h j) (jacobianGradient coords h k) := by
  simp only [detHessian, Option.bind_eq_bind, Option.bind_some] at hv
  split at hv
  · exact absurd hv (by simp)
  · rename_i hd
    obtain rfl := Option.some.inj hv
    rw [← trace_inv hd, ← trace_inv2 hd]
    fin_cases j <;> fin_cases k <;>
      simp only [sym2, Fin.zero_eta, Fin.mk_one, Fin.reduceFinMk, Fin.isValue, Matrix.cons_val] <;>
      first
        | ring1
        | (rw [Matrix.trace_mul_comm (_ * _) (_ * _)]; ring1)

theorem detGradient_apply {coords : Fin n → Point ℝ 3} {p : Point ℝ 3} {h : Fin n → Fin 6 → ℝ}
    {v : Fin 3 → ℝ} (hv : detGradient e coords (some h) p = some v) (j : Fin 3) :
    v j = D1 (jacobianMatrix e coords p) (jacobianGradient coords h j) := by
  simp only [detGradient, Option.bind_eq_bind, Option.bind_some] at hv
  split at hv
  · exact absurd hv (by simp)
  · rename_i hd
    obtain rfl := Option.some.inj hv
    exact trace_inv hd _

/-! ### Newton's iteration -/

theorem norm_zero : norm 0 = 0 := by simp [norm]

/-- Whatever `root` returns is the end of a Newton step not longer than the tolerance. -/
theorem root_some {f : Point ℝ 3 → Point ℝ 3} {jac : Point ℝ 3 → Mat} {xtol : ℝ} {fuel : Nat}
    {x y : Point ℝ 3} (h : root f jac xtol fuel x = some y) :
    ∃ z, newtonStep f jac z = some (z - y) ∧ norm (z - y) ≤ xtol := by
  induction fuel generalizing x with
  | zero => simp [root] at h
  | succ fuel ih =>
    simp only [root, Option.bind_eq_bind] at h
    cases hs : newtonStep f jac x with
    | none => rw [hs] at h; simp at h
    | some res =>
      rw [hs, Option.bind_some] at h
      split at h
      · exact ih h
      · rename_i hn
        obtain rfl := Option.some.inj h
        exact ⟨x, by rw [hs, sub_sub_cancel], by rw [sub_sub_cancel]; exact not_lt.1 hn⟩

/-- With enough rounds for the loop to end, more rounds do not matter. -/
theorem root_mono {f : Point ℝ 3 → Point ℝ 3} {jac : Point ℝ 3 → Mat} {xtol : ℝ} {fuel : Nat}
    {x y : Point ℝ 3} (h : root f jac xtol fuel x = some y) : root f jac xtol (fuel + 1) x = some y := by
  induction fuel generalizing x with
  | zero => simp [root] at h
  | succ fuel ih =>
    rw [root] at h ⊢
    simp only [Option.bind_eq_bind] at h ⊢
    cases hs : newtonStep f jac x with
    | none => rw [hs] at h; simp at h
    | some res =>
      rw [hs, Option.bind_some] at h
      rw [Option.bind_some]
      split at h
      · rename_i hn
        rw [if_pos hn]
        exact ih h
      · rename_i hn
        rw [if_neg hn]
        exact h

theorem newtonStep_eq {f : Point ℝ 3 → Point ℝ 3} {jac : Point ℝ 3 → Mat} {x r : Point ℝ 3}
    (h : newtonStep f jac x = some r) : (jac x).transpose.mulVec r = f x ∧ (jac x).det ≠ 0 := by
  unfold newtonStep at h
  split at h
  · exact absurd h (by simp)
  · rename_i hd
    obtain rfl := Option.some.inj h
    have : IsUnit (jac x).transpose.det := by rw [Matrix.det_transpose]; exact isUnit_iff_ne_zero.2 hd
    exact ⟨by rw [Matrix.mulVec_mulVec, Matrix.mul_nonsing_inv _ this, Matrix.one_mulVec], hd⟩

theorem newtonStep_of {f : Point ℝ 3 → Point ℝ 3} {jac : Point ℝ 3 → Mat} {x r : Point ℝ 3}
    (hd : (jac x).det ≠ 0) (h : (jac x).transpose.mulVec r = f x) : newtonStep f jac x = some r := by
  have hu : IsUnit (jac x).transpose.det := by rw [Matrix.det_transpose]; exact isUnit_iff_ne_zero.2 hd
  rw [newtonStep, if_neg hd, ← h, Matrix.mulVec_mulVec, Matrix.nonsing_inv_mul _ hu, Matrix.one_mulVec]

/-- A root is a fixed point of the iteration. -/
theorem root_at_root {f : Point ℝ 3 → Point ℝ 3} {jac : Point ℝ 3 → Mat} {xtol : ℝ} (ht : 0 ≤ xtol)
    (fuel : Nat) {x : Point ℝ 3} (hf : f x = 0) (hd : (jac x).det ≠ 0) :
    root f jac xtol (fuel + 1) x = some x := by
  have h : newtonStep f jac x = some 0 := newtonStep_of hd (by rw [hf, Matrix.mulVec_zero])
  rw [root]
  simp only [Option.bind_eq_bind, h, Option.bind_some, norm_zero, sub_zero]
  rw [if_neg (not_lt.2 ht)]

/-- For a function that equals its linearisation, two rounds suffice. -/
theorem root_of_affine {f : Point ℝ 3 → Point ℝ 3} {jac : Point ℝ 3 → Mat} {xtol : ℝ} (ht : 0 ≤ xtol)
    (A : Mat) (hA : A.det ≠ 0) (hj : ∀ x, jac x = A)
    (hf : ∀ x y, f y = f x + A.transpose.mulVec (y - x)) (fuel : Nat) (x : Point ℝ 3) :
    ∃ y, root f jac xtol (fuel + 2) x = some y ∧ f y = 0 := by
  have hd : ∀ x, (jac x).det ≠ 0 := fun x => by rw [hj]; exact hA
  obtain ⟨r, hr⟩ : ∃ r, newtonStep f jac x = some r := ⟨_, if_neg (hd x)⟩
  have h1 : f (x - r) = 0 := by
    have := (newtonStep_eq hr).1
    rw [hj] at this
    rw [hf x (x - r), sub_sub_cancel_left, Matrix.mulVec_neg, this, add_neg_cancel]
  refine ⟨x - r, ?_, h1⟩
  rw [root]
  simp only [Option.bind_eq_bind, hr, Option.bind_some]
  split
  · exact root_at_root ht fuel h1 (hd _)
  · rfl

end MiniCFD.Cell
