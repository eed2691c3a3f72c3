import Mathlib.Data.Real.Basic
import Mathlib.Data.Fin.VecNotation

/-!
# Model of the multi-dimensional Taylor bases

Covers `Taylor<Scalar, 2, P>` and `Taylor<Scalar, 3, P>` of `include/mini/basis/taylor.hpp`
(lines 86-508).  The matrices of coefficients have one row per physical component and every statement
acts on whole columns, hence on each row alike: a row is modelled.  Scalars are real numbers.
-/

namespace MiniCFD.Taylor

/-- `Taylor<Scalar, 2, 1>::GetValue`, taylor.hpp:93-96. -/
def value21 (x y : ℝ) : Fin 3 → ℝ := ![1, x, y]

/-- `Taylor<Scalar, 2, 2>::GetValue`, taylor.hpp:106-110. -/
def value22 (x y : ℝ) : Fin 6 → ℝ := ![1, x, y, x * x, x * y, y * y]

/-- `Taylor<Scalar, 2, 3>::GetValue`, taylor.hpp:120-126. -/
def value23 (x y : ℝ) : Fin 10 → ℝ :=
  let x_x := x * x; let x_y := x * y; let y_y := y * y
  ![1, x, y, x_x, x_y, y_y, x_x * x, x_x * y, x * y_y, y * y_y]

/-- `Taylor<Scalar, 3, 0>::GetValue`, taylor.hpp:136-139. -/
def value30 (_x _y _z : ℝ) : Fin 1 → ℝ := ![1]

/-- `Taylor<Scalar, 3, 1>::GetValue`, taylor.hpp:171-175. -/
def value31 (x y z : ℝ) : Fin 4 → ℝ := ![1, x, y, z]

/-- `Taylor<Scalar, 3, 2>::GetValue`, taylor.hpp:214-218. -/
def value32 (x y z : ℝ) : Fin 10 → ℝ :=
  ![1, x, y, z, x * x, x * y, x * z, y * y, y * z, z * z]

/-- `Taylor<Scalar, 3, 3>::GetValue`, taylor.hpp:314-321. -/
def value33 (x y z : ℝ) : Fin 20 → ℝ :=
  let xx := x * x; let xy := x * y; let xz := x * z; let yy := y * y; let yz := y * z
  let zz := z * z
  ![1, x, y, z, xx, xy, xz, yy, yz, zz,
    x * xx, x * xy, x * xz, x * yy, x * yz, x * zz, y * yy, y * yz, y * zz, z * zz]

/-- The column statements of the `GetPdvValue` functions. -/
inductive Step (N : Nat) where
  /-- `res.col(dst).setZero()` -/
  | zero (dst : Fin N)
  /-- `res.col(dst) += coeff.col(src) * s` -/
  | addCoeff (dst src : Fin N) (s : ℝ)
  /-- `res.col(dst) += res.col(src)` -/
  | addRes (dst src : Fin N)
  /-- `res.col(dst) *= s` -/
  | scale (dst : Fin N) (s : ℝ)

/-- Overwrite one entry. -/
def put {N : Nat} (r : Fin N → ℝ) (d : Fin N) (v : ℝ) : Fin N → ℝ := fun j => if j = d then v else r j

/-- Execution of one statement on the row `r` of `res`; `c` is the row of `coeff`. -/
def exec {N : Nat} (c : Fin N → ℝ) (r : Fin N → ℝ) : Step N → Fin N → ℝ
  | .zero d => put r d 0
  | .addCoeff d s w => put r d (r d + c s * w)
  | .addRes d s => put r d (r d + r s)
  | .scale d w => put r d (r d * w)

/-- A block of statements. -/
def run {N : Nat} (steps : List (Step N)) (c r : Fin N → ℝ) : Fin N → ℝ := steps.foldl (exec c) r

/-- `Taylor<Scalar, 3, 0>::GetPdvValue`, taylor.hpp:141-145. -/
def pdv30 (_c : Fin 1 → ℝ) (_x _y _z : ℝ) : Fin 1 → ℝ := fun _ => 0

/-- `Taylor<Scalar, 3, 1>::GetPdvValue`, taylor.hpp:176-180. -/
def pdv31 (c : Fin 4 → ℝ) (_x _y _z : ℝ) : Fin 4 → ℝ := run [.zero 0] c c

/-- `Taylor<Scalar, 3, 2>::GetPdvValue`, taylor.hpp:219-254; the assertions hold and are left out. -/
def pdv32 (c : Fin 10 → ℝ) (x y z : ℝ) : Fin 10 → ℝ :=
  run [.zero 0,
    .addCoeff 1 4 (2 * x), .addCoeff 1 5 y, .addCoeff 1 6 z,
    .addCoeff 2 5 x, .addCoeff 2 7 (2 * y), .addCoeff 2 8 z,
    .addCoeff 3 6 x, .addCoeff 3 8 y, .addCoeff 3 9 (2 * z),
    .addCoeff 4 4 1, .addCoeff 7 7 1, .addCoeff 9 9 1] c c

/-- Lines 326-359 of `Taylor<Scalar, 3, 3>::GetPdvValue`: the first derivatives. -/
def steps33a (x y z : ℝ) : List (Step 20) :=
  let xx := x * x; let xy := x * y; let xz := x * z; let yy := y * y; let yz := y * z
  let zz := z * z
  [.zero 0,
    .addCoeff 1 4 (2 * x), .addCoeff 1 5 y, .addCoeff 1 6 z, .addCoeff 1 10 (3 * xx),
    .addCoeff 1 11 (2 * xy), .addCoeff 1 12 (2 * xz), .addCoeff 1 13 yy, .addCoeff 1 14 yz,
    .addCoeff 1 15 zz,
    .addCoeff 2 5 x, .addCoeff 2 7 (2 * y), .addCoeff 2 8 z, .addCoeff 2 11 xx,
    .addCoeff 2 14 xz, .addCoeff 2 13 (2 * xy), .addCoeff 2 16 (3 * yy), .addCoeff 2 17 (2 * yz),
    .addCoeff 2 18 zz,
    .addCoeff 3 6 x, .addCoeff 3 8 y, .addCoeff 3 9 (2 * z), .addCoeff 3 12 xx,
    .addCoeff 3 14 xy, .addCoeff 3 15 (2 * xz), .addCoeff 3 17 yy, .addCoeff 3 18 (2 * yz),
    .addCoeff 3 19 (3 * zz)]

/-- Lines 360-378: the derivatives `xx`, `xy`, `xz`. -/
def steps33b (x y z : ℝ) : List (Step 20) :=
  [.addCoeff 4 11 y, .addCoeff 4 12 z, .addCoeff 4 10 (x * 3), .addRes 4 4,
    .addCoeff 5 11 (x * 2), .addCoeff 5 13 (y * 2), .addCoeff 5 14 z,
    .addCoeff 6 12 (x * 2), .addCoeff 6 15 (z * 2), .addCoeff 6 14 y]

/-- Lines 379-398: the derivatives `yy`, `yz`, `zz`; line 383 adds the column `XX`. -/
def steps33c (x y z : ℝ) : List (Step 20) :=
  [.addCoeff 7 13 x, .addCoeff 7 17 z, .addCoeff 7 16 (y * 3), .addRes 7 4,
    .addCoeff 8 14 x, .addCoeff 8 17 (y * 2), .addCoeff 8 18 (z * 2),
    .addCoeff 9 15 x, .addCoeff 9 18 y, .addCoeff 9 19 (z * 3), .addRes 9 9]

/-- Lines 399-426: the third derivatives. -/
def steps33d : List (Step 20) :=
  [.scale 10 6, .addRes 11 11, .addRes 12 12, .addRes 13 13, .addRes 15 15,
    .scale 16 6, .addRes 17 17, .addRes 18 18, .scale 19 6]

/-- `Taylor<Scalar, 3, 3>::GetPdvValue`, taylor.hpp:322-429, compiled without assertions. -/
def pdv33 (c : Fin 20 → ℝ) (x y z : ℝ) : Fin 20 → ℝ :=
  run steps33d c (run (steps33c x y z) c (run (steps33b x y z) c (run (steps33a x y z) c c)))

open scoped Classical in
/-- `Taylor<Scalar, 3, 3>::GetPdvValue` compiled with assertions: `none` when the assertion of
lines 384-385 or that of line 427 fails (the others hold in exact arithmetic and are left out). -/
noncomputable def pdv33Debug (c : Fin 20 → ℝ) (x y z : ℝ) : Option (Fin 20 → ℝ) :=
  let r := pdv33 c x y z
  if r 7 = c 16 * y * 6 + 2 * (c 7 + c 13 * x + c 17 * z) ∧ r 19 = c 19 * 2 then some r else none

/-- `Taylor<Scalar, 3, 1>::GetGradValue`, taylor.hpp:182-193. -/
def grad31 (c : Fin 4 → ℝ) (_x _y _z : ℝ) : Fin 3 → ℝ := ![c 1, c 2, c 3]

/-- `Taylor<Scalar, 3, 0>::GetGradValue`, taylor.hpp:147-152. -/
def grad30 (_c : Fin 1 → ℝ) (_x _y _z : ℝ) : Fin 3 → ℝ := ![0, 0, 0]

/-- `Taylor<Scalar, 3, 2>::GetGradValue`, taylor.hpp:256-277. -/
def grad32 (c : Fin 10 → ℝ) (x y z : ℝ) : Fin 3 → ℝ :=
  ![c 1 + c 4 * (2 * x) + c 5 * y + c 6 * z,
    c 2 + c 5 * x + c 7 * (2 * y) + c 8 * z,
    c 3 + c 6 * x + c 8 * y + c 9 * (2 * z)]

/-- `Taylor<Scalar, 3, 3>::GetGradValue`, taylor.hpp:431-474. -/
def grad33 (c : Fin 20 → ℝ) (x y z : ℝ) : Fin 3 → ℝ :=
  let xx := x * x; let xy := x * y; let xz := x * z; let yy := y * y; let yz := y * z
  let zz := z * z
  ![c 1 + c 4 * (2 * x) + c 5 * y + c 6 * z + c 10 * (3 * xx) + c 11 * (2 * xy) + c 12 * (2 * xz)
      + c 13 * yy + c 14 * yz + c 15 * zz,
    c 2 + c 5 * x + c 7 * (2 * y) + c 8 * z + c 11 * xx + c 14 * xz + c 13 * (2 * xy)
      + c 16 * (3 * yy) + c 17 * (2 * yz) + c 18 * zz,
    c 3 + c 6 * x + c 8 * y + c 9 * (2 * z) + c 12 * xx + c 14 * xy + c 15 * (2 * xz)
      + c 17 * yy + c 18 * (2 * yz) + c 19 * (3 * zz)]

end MiniCFD.Taylor
