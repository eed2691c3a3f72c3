import Verif.Lemmas.Frame

/-! C29: frames. -/

namespace MiniCFD.Frame
open MiniCFD.Spec.Frame Matrix

/-- After any sequence of rotations by any angles the axes are orthonormal and right-handed. -/
theorem frame_right_handed (ops : List Op) :
    RightHanded (run .default ops).x (run .default ops).y (run .default ops).z := by
  have base : RightHanded Axes.default.x Axes.default.y Axes.default.z := by
    refine ⟨?_, ?_, ?_, ?_, ?_, ?_, ?_⟩ <;>
      simp [Axes.default, dotProduct, Fin.sum_univ_three, cross_apply]
  have step : ∀ (ops : List Op) (f : Axes), RightHanded f.x f.y f.z →
      RightHanded (run f ops).x (run f ops).y (run f ops).z := by
    intro ops
    induction ops with
    | nil => exact fun f h => h
    | cons o ops ih => exact fun f h => ih (apply f o) (RightHanded_apply h o)
  exact step ops _ base

/-- Each call turns the whole frame about the named one of its own axes by the given angle, in the
right-hand sense. -/
theorem rotate_is_turn {f : Axes} (h : RightHanded f.x f.y f.z) (o : Op) :
    let k := match o with | .rx _ => f.x | .ry _ => f.y | .rz _ => f.z
    let d := match o with | .rx d => d | .ry d => d | .rz d => d
    (apply f o).x = turn k d f.x ∧ (apply f o).y = turn k d f.y ∧ (apply f o).z = turn k d f.z := by
  have ang : ∀ d : ℝ, Real.pi * (d / 180) = deg2rad d := fun d => by rw [deg2rad]; ring
  have hyx : f.y ⬝ᵥ f.x = 0 := by rw [dotProduct_comm]; exact h.xy
  have hzy : f.z ⬝ᵥ f.y = 0 := by rw [dotProduct_comm]; exact h.yz
  have hxz : f.x ⬝ᵥ f.z = 0 := by rw [dotProduct_comm]; exact h.zx
  have c1 := h.cross
  have c2 := cross_yz h
  have c3 := cross_zx h
  have a1 : crossProduct f.y f.x = -f.z := by rw [← c1, cross_anticomm]
  have a2 : crossProduct f.z f.y = -f.x := by rw [← c2, cross_anticomm]
  have a3 : crossProduct f.x f.z = -f.y := by rw [← c3, cross_anticomm]
  cases o with
  | rx d =>
    refine ⟨?_, ?_, ?_⟩ <;>
      simp only [apply, Axes.rotateX, cosSin, turn, ang, cross_self, h.xx, h.xy, hxz, c1, a3,
        smul_zero, smul_neg] <;> module
  | ry d =>
    refine ⟨?_, ?_, ?_⟩ <;>
      simp only [apply, Axes.rotateY, cosSin, turn, ang, cross_self, h.yy, h.yz, hyx, c2, a1,
        smul_zero, smul_neg] <;> module
  | rz d =>
    refine ⟨?_, ?_, ?_⟩ <;>
      simp only [apply, Axes.rotateZ, cosSin, turn, ang, cross_self, h.zz, h.zx, hzy, c3, a2,
        smul_zero, smul_neg] <;> module

/-- Two successive rotations about the same axis add their angles. -/
theorem rotate_add (f : Axes) (c d : ℝ) :
    (f.rotateX c).rotateX d = f.rotateX (c + d) ∧ (f.rotateY c).rotateY d = f.rotateY (c + d) ∧
      (f.rotateZ c).rotateZ d = f.rotateZ (c + d) := by
  have e : deg2rad (c + d) = deg2rad c + deg2rad d := by simp only [deg2rad]; ring
  refine ⟨?_, ?_, ?_⟩ <;>
    simp only [Axes.rotateX, Axes.rotateY, Axes.rotateZ, cosSin, e, Real.cos_add, Real.sin_add,
      Axes.mk.injEq, true_and, and_true] <;> constructor <;> module

/-- A full revolution about any axis restores the frame. -/
theorem rotate_full (f : Axes) : f.rotateX 360 = f ∧ f.rotateY 360 = f ∧ f.rotateZ 360 = f := by
  have e : deg2rad 360 = 2 * Real.pi := by rw [deg2rad]; ring
  refine ⟨?_, ?_, ?_⟩ <;>
    simp [Axes.rotateX, Axes.rotateY, Axes.rotateZ, cosSin, e, Real.cos_two_pi, Real.sin_two_pi]

/-- A non-trivial history: a quarter turn about Z followed by a quarter turn about the new X. -/
example : (run .default [.rz 90, .rx 90]).z = ![1, 0, 0] := by
  have e : deg2rad 90 = Real.pi / 2 := by rw [deg2rad]; ring
  simp [run, apply, Axes.rotateZ, Axes.rotateX, cosSin, e, Axes.default]

end MiniCFD.Frame
