import Mathlib.LinearAlgebra.CrossProduct
import Mathlib.Analysis.SpecialFunctions.Trigonometric.Basic

/-! Orthonormal right-handed triples and rotations about an axis. -/

namespace MiniCFD.Spec.Frame
open Matrix

/-- The triple `x, y, z` is orthonormal and right-handed. -/
structure RightHanded (x y z : Fin 3 → ℝ) : Prop where
  xx : x ⬝ᵥ x = 1
  yy : y ⬝ᵥ y = 1
  zz : z ⬝ᵥ z = 1
  xy : x ⬝ᵥ y = 0
  yz : y ⬝ᵥ z = 0
  zx : z ⬝ᵥ x = 0
  cross : crossProduct x y = z

/-- Rodrigues' formula: the vector `v` turned by `deg` degrees about the unit vector `k`, counter
clockwise when `k` points at the observer. -/
noncomputable def turn (k : Fin 3 → ℝ) (deg : ℝ) (v : Fin 3 → ℝ) : Fin 3 → ℝ :=
  let c := Real.cos (Real.pi * (deg / 180))
  let s := Real.sin (Real.pi * (deg / 180))
  c • v + s • crossProduct k v + ((1 - c) * (k ⬝ᵥ v)) • k

end MiniCFD.Spec.Frame
