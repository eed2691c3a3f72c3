import Mathlib.Analysis.Real.Sqrt
import Mathlib.LinearAlgebra.Matrix.NonsingularInverse

/-
Model of the convection solvers of /repo/include/mini/riemann/simple/ and of their rotated
versions (/repo/include/mini/riemann/rotated/simple.hpp, burgers.hpp). Scalars are reals.
-/
namespace MiniCFD.Simple

/-! ### burgers.hpp -/

/-- `Burgers::GetFlux` (simple/burgers.hpp:53-55). -/
noncomputable def burgersFlux (k state : ℝ) : ℝ := state * state * k / 2

/-- `Burgers::GetFluxUpwind` (simple/burgers.hpp:32-48). -/
noncomputable def burgersUpwind (k left right : ℝ) : ℝ :=
  if k = 0 then 0 else
    let l := k * left
    let r := k * right
    let m := (l + r) / 2
    let l' := if l ≥ r then m else l
    let r' := if l ≥ r then m else r
    if 0 ≤ l' then burgersFlux k left
    else if 0 ≥ r' then burgersFlux k right
    else burgersFlux k (0 / k)

/-! ### single.hpp -/

/-- `Single::GetFlux` (simple/single.hpp:45-47). -/
def singleFlux (a state : ℝ) : ℝ := state * a

/-- `Single::GetFluxUpwind` (simple/single.hpp:33-40). -/
noncomputable def singleUpwind (a left right : ℝ) : ℝ :=
  if 0 < a then left * a else right * a

/-! ### double.hpp -/

/-- A column of two scalars. -/
@[ext] structure V2 where
  x : ℝ
  y : ℝ

/-- A 2×2 matrix by its entries `(0,0) (0,1) (1,0) (1,1)`. -/
@[ext] structure M2 where
  a : ℝ
  b : ℝ
  c : ℝ
  d : ℝ

/-- `a_const_ * state` (simple/double.hpp:44-46). -/
def M2.app (m : M2) (v : V2) : V2 := ⟨m.a * v.x + m.b * v.y, m.c * v.x + m.d * v.y⟩

/-- `delta` in `GetEigenValues` (simple/double.hpp:73-77). -/
noncomputable def delta (m : M2) : ℝ :=
  Real.sqrt ((m.a + m.d) * (m.a + m.d) - 4 * (m.a * m.d - m.b * m.c))

/-- `eigen_values_[0]` (simple/double.hpp:78). -/
noncomputable def eig0 (m : M2) : ℝ := (m.a + m.d - delta m) / 2

/-- `eigen_values_[1]` (simple/double.hpp:79). -/
noncomputable def eig1 (m : M2) : ℝ := (m.a + m.d + delta m) / 2

/-- One column of `eigen_matrix_r_` (simple/double.hpp:81-102), for the eigenvalue `e`. -/
noncomputable def eigenColumn (m : M2) (e : ℝ) : V2 :=
  if m.a - e = 0 ∧ m.b = 0 then ⟨m.d - e, -m.c⟩ else ⟨m.b, -(m.a - e)⟩

/-- `eigen_matrix_r_`. -/
noncomputable def eigenR (m : M2) : M2 :=
  ⟨(eigenColumn m (eig0 m)).x, (eigenColumn m (eig1 m)).x,
   (eigenColumn m (eig0 m)).y, (eigenColumn m (eig1 m)).y⟩

/-- `GetInverseEigenVectors` (simple/double.hpp:103-110). -/
noncomputable def inverse2 (r : M2) : M2 :=
  let det := r.a * r.d - r.b * r.c
  ⟨r.d / det, -r.b / det, -r.c / det, r.a / det⟩

/-- `FluxInsideSector(left, right, 1)` (simple/double.hpp:49-66): wave 0 takes the right state,
wave 1 the left one. -/
noncomputable def insideSector (m : M2) (left right : V2) : V2 :=
  let r := eigenR m
  let l := inverse2 r
  let t0 := (l.a * right.x + l.b * right.y) * eig0 m
  let t1 := (l.c * left.x + l.d * left.y) * eig1 m
  ⟨0 + t0 * r.a + t1 * r.b, 0 + t0 * r.c + t1 * r.d⟩

/-- `Double::GetFluxUpwind` (simple/double.hpp:31-42). -/
noncomputable def doubleUpwind (m : M2) (left right : V2) : V2 :=
  if 0 ≤ eig0 m then m.app left
  else if 0 ≥ eig1 m then m.app right
  else insideSector m left right

/-! ### multiple.hpp -/

open Matrix in
/-- `Multiple::GetFluxUpwind` (simple/multiple.hpp:32-41), for the decomposition kept by the
object: `rows` (`eigen_rows_`), `cols` (`eigen_cols_`) and `vals` (`eigen_values_`). The
decomposition itself comes from `Eigen::EigenSolver` (multiple.hpp:48-53) and is not modelled; see
`Decomposed` in the spec for what is assumed of it. -/
noncomputable def multipleUpwind {K : Nat} (rows cols : Matrix (Fin K) (Fin K) ℝ)
    (vals : Fin K → ℝ) (left right : Fin K → ℝ) : Fin K → ℝ :=
  ∑ k : Fin K, ((cols k ⬝ᵥ if vals k > 0 then left else right) * vals k) • fun i => rows i k

/-! ### rotated/simple.hpp -/

/-- `Simple::Rotate` (rotated/simple.hpp:45-53): the coefficient in the direction of the normal.
`J` is `Scalar` or `Matrix`. -/
def aNormal {J : Type} [AddCommMonoid J] [Module ℝ J] (coeff : Fin 3 → J) (nu : Fin 3 → ℝ) : J :=
  nu 0 • coeff 0 + nu 1 • coeff 1 + nu 2 • coeff 2

/-- `Burgers::GetFluxMatrix` (rotated/burgers.hpp:25-32), one column. -/
noncomputable def burgersFluxMatrix (coeff : Fin 3 → ℝ) (state : ℝ) (c : Fin 3) : ℝ :=
  state * state * (coeff c / 2)

/-- `Simple::GetFluxMatrix` (rotated/simple.hpp:88-94), one column, for a scalar state. -/
def simpleFluxMatrix (coeff : Fin 3 → ℝ) (state : ℝ) (c : Fin 3) : ℝ := coeff c * state

/-- `Simple::Rotate` (rotated/simple.hpp:45-53) for 2×2 coefficients. -/
def aNormal2 (coeff : Fin 3 → M2) (nu : Fin 3 → ℝ) : M2 :=
  ⟨(coeff 0).a * nu 0 + (coeff 1).a * nu 1 + (coeff 2).a * nu 2,
   (coeff 0).b * nu 0 + (coeff 1).b * nu 1 + (coeff 2).b * nu 2,
   (coeff 0).c * nu 0 + (coeff 1).c * nu 1 + (coeff 2).c * nu 2,
   (coeff 0).d * nu 0 + (coeff 1).d * nu 1 + (coeff 2).d * nu 2⟩

/-- `Simple::GetFluxMatrix` (rotated/simple.hpp:88-94), one column, for a 2-component state. -/
def simpleFluxMatrix2 (coeff : Fin 3 → M2) (state : V2) (c : Fin 3) : V2 := (coeff c).app state

open Matrix in
/-- `Simple::GetFluxMatrix` (rotated/simple.hpp:88-94), one column, for a K-component state. -/
def simpleFluxMatrixK {K : Nat} (coeff : Fin 3 → Matrix (Fin K) (Fin K) ℝ) (state : Fin K → ℝ)
    (c : Fin 3) : Fin K → ℝ := coeff c *ᵥ state

end MiniCFD.Simple
