import Verif.Model.Euler

/-
Model of /repo/include/mini/riemann/euler/eigen.hpp (three dimensions only, as in the code) and of
its use in /repo/include/mini/riemann/rotated/euler.hpp.
-/
namespace MiniCFD.Eigen
open MiniCFD.Euler

abbrev Mat5 := Matrix (Fin 5) (Fin 5) ℝ
abbrev Vec3 := Fin 3 → ℝ

/-- `u_nu` and its kin (eigen.hpp:31-33). -/
def comp (s : Tup 2) (e : Vec3) : ℝ := s.mom 0 * e 0 + s.mom 1 * e 1 + s.mom 2 * e 2

/-- `ek` (eigen.hpp:36). -/
noncomputable def ek (s : Tup 2) : ℝ :=
  (s.mom 0 * s.mom 0 + s.mom 1 * s.mom 1 + s.mom 2 * s.mom 2) / 2

/-- `e0` (eigen.hpp:37). -/
noncomputable def e0 (γ : ℝ) (s : Tup 2) : ℝ :=
  speedOfSound γ s * speedOfSound γ s * (1 / (γ - 1))

/-- Columns of `R` (eigen.hpp:40-44). -/
noncomputable def rCol (γ : ℝ) (s : Tup 2) (nu mu pi : Vec3) : Fin 5 → Fin 5 → ℝ :=
  let a := speedOfSound γ s
  let h0 := e0 γ s + ek s
  ![![1, s.mom 0 - a * nu 0, s.mom 1 - a * nu 1, s.mom 2 - a * nu 2, h0 - a * comp s nu],
    ![1, s.mom 0, s.mom 1, s.mom 2, ek s],
    ![0, mu 0, mu 1, mu 2, comp s mu],
    ![0, pi 0, pi 1, pi 2, comp s pi],
    ![1, s.mom 0 + a * nu 0, s.mom 1 + a * nu 1, s.mom 2 + a * nu 2, h0 + a * comp s nu]]

/-- Columns of `L` (eigen.hpp:46-55). -/
noncomputable def lCol (γ : ℝ) (s : Tup 2) (nu mu pi : Vec3) : Fin 5 → Fin 5 → ℝ :=
  let a := speedOfSound γ s
  let b1 := 1 / e0 γ s
  let b2 := b1 * ek s
  ![![(b2 + comp s nu / a) / 2, 1 - b2, -comp s mu, -comp s pi, (b2 - comp s nu / a) / 2],
    ![-(b1 * s.mom 0 + nu 0 / a) / 2, b1 * s.mom 0, mu 0, pi 0, -(b1 * s.mom 0 - nu 0 / a) / 2],
    ![-(b1 * s.mom 1 + nu 1 / a) / 2, b1 * s.mom 1, mu 1, pi 1, -(b1 * s.mom 1 - nu 1 / a) / 2],
    ![-(b1 * s.mom 2 + nu 2 / a) / 2, b1 * s.mom 2, mu 2, pi 2, -(b1 * s.mom 2 - nu 2 / a) / 2],
    ![b1 / 2, -b1, 0, 0, b1 / 2]]

/-- The constructor from a primitive state (eigen.hpp:27-56): matrix `R`. -/
noncomputable def matR (γ : ℝ) (s : Tup 2) (nu mu pi : Vec3) : Mat5 :=
  Matrix.of fun i j => rCol γ s nu mu pi j i

/-- Matrix `L`. -/
noncomputable def matL (γ : ℝ) (s : Tup 2) (nu mu pi : Vec3) : Mat5 :=
  Matrix.of fun i j => lCol γ s nu mu pi j i

/-- The constructor from a conservative state (eigen.hpp:57-61) with the axes of a face frame
(`UpdateEigenMatrices`, rotated/euler.hpp:203-205). -/
noncomputable def matROf (γ : ℝ) (F : Frame 2) (c : Tup 2) : Mat5 :=
  matR γ (toPrim γ c) (F 0) (F 1) (F 2)

noncomputable def matLOf (γ : ℝ) (F : Frame 2) (c : Tup 2) : Mat5 :=
  matL γ (toPrim γ c) (F 0) (F 1) (F 2)

end MiniCFD.Eigen
