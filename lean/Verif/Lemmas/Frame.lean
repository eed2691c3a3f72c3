import Verif.Model.Frame
import Verif.Spec.Frame
import Mathlib.Tactic.LinearCombination
import Mathlib.Tactic.FinCases
import Mathlib.Tactic.Linarith
import Mathlib.Tactic.Module

/-! Lemmas on frames. -/

namespace MiniCFD.Frame
open MiniCFD.Spec.Frame Matrix

theorem cos_sq_add_sin_sq (deg : ℝ) : (cosSin deg).1 ^ 2 + (cosSin deg).2 ^ 2 = 1 :=
  Real.cos_sq_add_sin_sq _

theorem cross_zx {x y z : Fin 3 → ℝ} (h : RightHanded x y z) : crossProduct z x = y := by
  have h1 := h.xx; have h4 := h.xy
  rw [← h.cross]
  ext i
  simp only [dotProduct, Fin.sum_univ_three, cross_apply] at *
  fin_cases i <;> simp [Matrix.cons_val_zero, Matrix.cons_val_one]
  · linear_combination y 0 * h1 - x 0 * h4
  · linear_combination y 1 * h1 - x 1 * h4
  · linear_combination y 2 * h1 - x 2 * h4

theorem cross_yz {x y z : Fin 3 → ℝ} (h : RightHanded x y z) : crossProduct y z = x := by
  have h1 := h.yy; have h4 := h.xy
  rw [← h.cross]
  ext i
  simp only [dotProduct, Fin.sum_univ_three, cross_apply] at *
  fin_cases i <;> simp [Matrix.cons_val_zero, Matrix.cons_val_one]
  · linear_combination x 0 * h1 - y 0 * h4
  · linear_combination x 1 * h1 - y 1 * h4
  · linear_combination x 2 * h1 - y 2 * h4

theorem cross_smul_add (a b c d : ℝ) (u v : Fin 3 → ℝ) :
    crossProduct (a • u + b • v) (c • u + d • v) = (a * d - b * c) • crossProduct u v := by
  ext i
  simp only [cross_apply]
  fin_cases i <;> simp [Matrix.cons_val_zero, Matrix.cons_val_one] <;> ring

/-- Rotating the first two axes of a right-handed triple in their plane. -/
theorem planar {x y z : Fin 3 → ℝ} (h : RightHanded x y z) {c s : ℝ} (hcs : c ^ 2 + s ^ 2 = 1) :
    RightHanded (c • x + s • y) (c • y - s • x) z := by
  have hyx : y ⬝ᵥ x = 0 := by rw [dotProduct_comm]; exact h.xy
  have hzy : z ⬝ᵥ y = 0 := by rw [dotProduct_comm]; exact h.yz
  have hxz : x ⬝ᵥ z = 0 := by rw [dotProduct_comm]; exact h.zx
  refine ⟨?_, ?_, h.zz, ?_, ?_, ?_, ?_⟩
  · simp only [dotProduct_add, add_dotProduct, dotProduct_smul, smul_dotProduct, smul_eq_mul, h.xx,
      h.yy, h.xy, hyx]
    linear_combination hcs
  · simp only [dotProduct_sub, sub_dotProduct, dotProduct_smul, smul_dotProduct, smul_eq_mul, h.xx,
      h.yy, h.xy, hyx]
    linear_combination hcs
  · simp only [dotProduct_sub, add_dotProduct, dotProduct_smul, smul_dotProduct, smul_eq_mul, h.xx,
      h.yy, h.xy, hyx]
    ring
  · simp [sub_dotProduct, smul_dotProduct, h.yz, hxz]
  · simp [dotProduct_add, dotProduct_smul, h.zx, hzy]
  · have e : c • y - s • x = (-s) • x + c • y := by module
    rw [e, cross_smul_add, h.cross]
    have : c * c - s * -s = 1 := by linear_combination hcs
    rw [this, one_smul]

theorem cyc {x y z : Fin 3 → ℝ} (h : RightHanded x y z) : RightHanded y z x :=
  ⟨h.yy, h.zz, h.xx, h.yz, h.zx, h.xy, cross_yz h⟩

theorem RightHanded_apply {f : Axes} (h : RightHanded f.x f.y f.z) (o : Op) :
    RightHanded (apply f o).x (apply f o).y (apply f o).z := by
  cases o with
  | rx d => exact cyc (cyc (planar (cyc h) (cos_sq_add_sin_sq d)))
  | ry d =>
    have := cyc (planar (cyc (cyc h)) (cos_sq_add_sin_sq d))
    have e : (f.rotateY d).z = (cosSin d).1 • f.z + (cosSin d).2 • f.x := rfl
    exact this
  | rz d => exact planar h (cos_sq_add_sin_sq d)

end MiniCFD.Frame
