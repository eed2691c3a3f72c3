import Mathlib.Algebra.Field.Basic
import Mathlib.Data.Nat.Factorial.Basic
import Mathlib.Data.Nat.Cast.Basic
import Mathlib.LinearAlgebra.Matrix.NonsingularInverse

/-!
# Model of the one-dimensional Taylor basis and of the Lagrange bases

Covers `Taylor<Scalar, 1, kDegree>` of `include/mini/basis/taylor.hpp` (lines 28-84) and
`include/mini/basis/lagrange.hpp` (`Line`, `Hexahedron`).  Scalars form an arbitrary field; rounding
is not modelled and the assertions with tolerances are left out.
-/

namespace MiniCFD.Lagrange

variable {K : Type*} [Field K]

/-- The loop of `Taylor::GetValues`, taylor.hpp:49-51: `n` more entries after the power `acc`. -/
def powersLoop (x : K) : Nat → K → List K
  | 0, _ => []
  | n + 1, acc => acc * x :: powersLoop x n (acc * x)

/-- `Taylor<Scalar, 1, P>::GetValues`, taylor.hpp:45-54. -/
def taylorValues (P : Nat) (x : K) : List K := 1 :: powersLoop x P 1

/-- The loop of `Taylor::GetDerivatives`, taylor.hpp:72-78: `n` more entries, the next one with
index `j`; `fj`, `fjk`, `xp` are `factorial_j`, `factorial_j_minus_k`, `x_power`. -/
def derivLoop (k : Nat) (x : K) : Nat → Nat → K → K → K → List K
  | 0, _, _, _, _ => []
  | n + 1, j, fj, fjk, xp =>
    let fjk := fjk * ((j - k : Nat) : K)
    let fj := fj * (j : K)
    let xp := xp * x
    xp * fj / fjk :: derivLoop k x n (j + 1) fj fjk xp

/-- `Taylor<Scalar, 1, P>::GetDerivatives`, taylor.hpp:63-83, for `k ≤ P` (the assertion of L64).
`std::tgamma(k + 1)` is the factorial of `k`. -/
def taylorDerivatives (P k : Nat) (x : K) : List K :=
  List.replicate k 0 ++ ((k.factorial : K) / 1 :: derivLoop k x (P - k) (k + 1) (k.factorial : K) 1 1)

/-- A list of values as a row vector; absent entries cannot occur for the lists used here (their
lengths are proved) and read as zero. -/
def row {N : Nat} (l : List K) : Fin N → K := fun i => (l[i.val]?).getD 0

/-- `taylor_to_lagrange`, lagrange.hpp:71-75: the Taylor values at the nodes. -/
def taylorToLagrange {P : Nat} (nodes : Fin (P + 1) → K) : Matrix (Fin (P + 1)) (Fin (P + 1)) K :=
  Matrix.of fun j => row (taylorValues P (nodes j))

/-- `lagrange_to_taylor_`, lagrange.hpp:76. Eigen's inverse of a singular matrix is not modelled;
distinct nodes are assumed wherever it matters. -/
noncomputable def lagrangeToTaylor {P : Nat} (nodes : Fin (P + 1) → K) :
    Matrix (Fin (P + 1)) (Fin (P + 1)) K :=
  (taylorToLagrange nodes)⁻¹

/-- The inner loop of `Line::GetValues` for the entry `i`, lagrange.hpp:112-117. -/
def valueLoop {N : Nat} (nodes : Fin N → K) (x : K) (i : Fin N) : K :=
  (List.finRange N).foldl
    (fun v j => if i ≠ j then v * ((x - nodes j) / (nodes i - nodes j)) else v) 1

/-- `Line::GetValues`, lagrange.hpp:108-120. -/
def lineValues {N : Nat} (nodes : Fin N → K) (x : K) : Fin N → K := fun i => valueLoop nodes x i

/-- `Line::GetDerivatives(int k, Scalar x)`, lagrange.hpp:129-132. -/
noncomputable def lineDerivatives {P : Nat} (nodes : Fin (P + 1) → K) (k : Nat) (x : K) :
    Fin (P + 1) → K :=
  Matrix.vecMul (row (taylorDerivatives P k x)) (lagrangeToTaylor nodes)

/-- The table `derivatives_` filled by the constructor (lagrange.hpp:79-84) and read by
`GetDerivatives(int k, int j)` (lagrange.hpp:141-143). -/
noncomputable def lineCached {P : Nat} (nodes : Fin (P + 1) → K) (k j : Fin (P + 1)) :
    Fin (P + 1) → K :=
  lineDerivatives nodes k (nodes j)

/-! ### Hexahedron -/

/-- `Hexahedron::index(int i, int j, int k)`, lagrange.hpp:236-238. -/
def index3 (J K : Nat) (i j k : Nat) : Nat := i * J * K + j * K + k

/-- `Hexahedron::index(int ijk)`, lagrange.hpp:245-250. -/
def unindex3 (J K : Nat) (ijk : Nat) : Nat × Nat × Nat :=
  let k := ijk % K
  let j := ijk / K
  let i := j / J
  let j := j % J
  (i, j, k)

/-- The triple loop `vec[ijk++] = …` shared by `Hexahedron::GetValues` (lagrange.hpp:277-287) and
`Hexahedron::GetDerivatives` (lagrange.hpp:317-327). -/
def tensorLoop {I J L : Nat} (vx : Fin I → K) (vy : Fin J → K) (vz : Fin L → K) : List K :=
  (List.finRange I).flatMap fun i => (List.finRange J).flatMap fun j =>
    let vxy := vx i * vy j
    (List.finRange L).map fun k => vxy * vz k

/-- `Hexahedron::GetValues`, lagrange.hpp:272-288. -/
def hexValues {I J L : Nat} (nx : Fin I → K) (ny : Fin J → K) (nz : Fin L → K) (x y z : K) :
    List K :=
  tensorLoop (lineValues nx x) (lineValues ny y) (lineValues nz z)

/-- `Hexahedron::GetDerivatives(a, b, c, x, y, z)`, lagrange.hpp:311-328. -/
noncomputable def hexDerivatives {P Q R : Nat} (nx : Fin (P + 1) → K) (ny : Fin (Q + 1) → K)
    (nz : Fin (R + 1) → K) (a b c : Nat) (x y z : K) : List K :=
  tensorLoop (lineDerivatives nx a x) (lineDerivatives ny b y) (lineDerivatives nz c z)

/-- `Hexahedron::GetNode(int ijk)`, lagrange.hpp:258-262 with 223-226; `none` when the index is out
of range. -/
def hexNode {I J L : Nat} (nx : Fin I → K) (ny : Fin J → K) (nz : Fin L → K) (ijk : Nat) :
    Option (K × K × K) :=
  let (i, j, k) := unindex3 J L ijk
  if hi : i < I then if hj : j < J then if hk : k < L then
    some (nx ⟨i, hi⟩, ny ⟨j, hj⟩, nz ⟨k, hk⟩) else none else none else none

end MiniCFD.Lagrange
