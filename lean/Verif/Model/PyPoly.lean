import Verif.Model.Vincent
import Mathlib.Data.Nat.Factorial.Basic
import Mathlib.LinearAlgebra.Matrix.NonsingularInverse
import Mathlib.Data.List.FinRange

/-!
# Model of the special polynomials of the Python code

Covers `python/polynomial.py`: `Radau`, `Huynh`, `Vincent`, `IthLagrange`, `LagrangeBasis`.  Scalars
are real numbers.  From scipy come `eval_legendre`, modelled by the recurrence of the Legendre
polynomials and `P_{-n-1} = P_n`, and `roots_legendre`, a parameter.  `none` stands for a failed
assertion or for the error raised by `np.linalg.solve` on a singular matrix.
-/

namespace MiniCFD.PyPoly
open MiniCFD.Vincent (legendre)

/-- `scipy.special.eval_legendre(n, x)`; the index may be negative. -/
noncomputable def evalLegendre : ℤ → ℝ → ℝ
  | .ofNat n, x => legendre n x
  | .negSucc n, x => legendre n x

/-! ### Radau -/

/-- `Radau.local_to_value`, polynomial.py:36-42: left and right. -/
noncomputable def radauValue (k : Nat) (x : ℝ) : ℝ × ℝ :=
  let curr := evalLegendre k x
  let prev := evalLegendre (k - 1) x
  let left := (curr + prev) / 2
  let right := curr - prev
  let right := right * ((-1) ^ k / 2)
  (left, right)

/-- One pass of the loop in `Radau.local_to_gradient`, polynomial.py:47-51: `prev`, `curr`. -/
noncomputable def radauPass (x : ℝ) (w : ℝ × ℝ) (k : Nat) : ℝ × ℝ :=
  let prev := w.2
  let curr := k * evalLegendre (k - 1) x
  let curr := curr + x * prev
  (prev, curr)

/-- `Radau.local_to_gradient`, polynomial.py:44-55. -/
noncomputable def radauGradient (k : Nat) (x : ℝ) : ℝ × ℝ :=
  let w := (List.range' 1 k).foldl (radauPass x) (0, 0)
  let left := (w.2 + w.1) / 2
  let right := w.2 - w.1
  let right := right * ((-1) ^ k / 2)
  (left, right)

/-! ### Vincent -/

/-- The attributes `_k`, `_next_ratio`, `_prev_ratio`, polynomial.py:151-157. -/
structure Vincent where
  k : Nat
  next : ℝ
  prev : ℝ

/-- `Vincent.discontinuous_galerkin`, polynomial.py:139-141. -/
noncomputable def muGalerkin (_k : Nat) : ℝ := 1

/-- `Vincent.spectral_difference`, polynomial.py:143-145. -/
noncomputable def muDifference (k : Nat) : ℝ := (k + 1) / (2 * k + 1)

/-- `Vincent.huynh_lumping_lobatto`, polynomial.py:147-149, the default of the constructor. -/
noncomputable def muLobatto (k : Nat) : ℝ := k / (2 * k + 1)

/-- `Vincent.__init__`, polynomial.py:151-157. -/
noncomputable def vincent (degree : Nat) (mu : Nat → ℝ) : Option Vincent :=
  if 1 ≤ degree ∧ degree ≤ 10 then
    let k := degree - 1
    let next := mu k
    some ⟨k, next, 1 - next⟩
  else none

/-- The function `right` in `Vincent.local_to_value`, polynomial.py:166-170. -/
noncomputable def Vincent.right (v : Vincent) (xi : ℝ) : ℝ :=
  let val := evalLegendre v.k xi
  let val := val + v.prev * evalLegendre ((v.k : ℤ) - 1) xi
  let val := val + v.next * evalLegendre (v.k + 1) xi
  val / 2

/-- `Vincent.local_to_value`, polynomial.py:165-171. -/
noncomputable def Vincent.value (v : Vincent) (x : ℝ) : ℝ × ℝ := (v.right (-x), v.right x)

/-- The three local variables of `Vincent.local_to_gradient`. -/
structure Window where
  prev : ℝ
  curr : ℝ
  next : ℝ

/-- One pass of the loop, polynomial.py:179-185. -/
noncomputable def vincentPass (x : ℝ) (w : Window) (kCurr : Nat) : Window :=
  let w := if kCurr > 0 then { w with prev := w.curr, curr := w.next } else w
  let kNext := kCurr + 1
  { w with next := (kNext : ℝ) * evalLegendre kCurr x + x * w.curr }

/-- `Vincent.local_to_gradient`, polynomial.py:173-193, when the point is not in the table. -/
noncomputable def Vincent.gradient (v : Vincent) (x : ℝ) : ℝ × ℝ :=
  let w := (List.range (1 + v.k)).foldl (vincentPass x) ⟨0, 0, 0⟩
  let left := (-1) ^ v.k * (w.curr - v.prev * w.prev - v.next * w.next) / 2
  let right := (w.curr + v.prev * w.prev + v.next * w.next) / 2
  (left, right)

/-- The table `_local_to_gradient`, polynomial.py:157, as a list of pairs. -/
abbrev Memo := List (ℝ × (ℝ × ℝ))

open scoped Classical in
/-- `Vincent.local_to_gradient`, polynomial.py:173-193, with the table it reads and fills. -/
noncomputable def Vincent.call (v : Vincent) (memo : Memo) (x : ℝ) : (ℝ × ℝ) × Memo :=
  match memo.find? fun e => e.1 = x with
  | some e => (e.2, memo)
  | none =>
    let r := v.gradient x
    (r, (x, r) :: memo)

/-- Consecutive calls. -/
noncomputable def Vincent.calls (v : Vincent) : List ℝ → Memo → List (ℝ × ℝ)
  | [], _ => []
  | x :: xs, memo =>
    let (r, memo) := v.call memo x
    r :: v.calls xs memo

/-! ### Huynh -/

/-- What `roots_legendre(n)` returns: points and weights. -/
structure Roots (n : Nat) where
  x : Fin n → ℝ
  w : Fin n → ℝ

/-- The matrix `a` of `Huynh.__init__`, polynomial.py:75-96.  The loop that adds up the quadrature is
written as a sum. -/
noncomputable def huynhMatrix (degree nLump : Nat) (roots : Roots degree) :
    Matrix (Fin (degree + 1)) (Fin (degree + 1)) ℝ := fun l i =>
  if l.val < nLump then
    if l.val ≤ i.val then
      (-1) ^ (i.val - l.val) * ((i.val.factorial : ℝ) / ((i.val - l.val).factorial : ℝ))
    else 0
  else if l.val < degree then
    let p := l.val - nLump
    ∑ q, roots.x q ^ i.val * evalLegendre p (roots.x q) * roots.w q
  else 1

/-- The right-hand side, polynomial.py:76 and 97. -/
noncomputable def huynhRhs (degree : Nat) : Fin (degree + 1) → ℝ := fun l =>
  if l.val = degree then 1 else 0

open scoped Classical Matrix in
/-- `Huynh.__init__`, polynomial.py:68-104: the attribute `_value_coeff`; `_grad_coeff` and the
powers follow from it. -/
noncomputable def huynh (degree nLump : Nat) (roots : Roots degree) :
    Option (Fin (degree + 1) → ℝ) :=
  if 1 ≤ degree ∧ degree ≤ 10 ∧ 1 ≤ nLump ∧ nLump ≤ degree then
    let a := huynhMatrix degree nLump roots
    if a.det = 0 then none else some (a⁻¹ *ᵥ huynhRhs degree)
  else none

/-- `Huynh._local_to_right_value`, polynomial.py:112-113. -/
noncomputable def huynhRight {n : Nat} (coeff : Fin n → ℝ) (x : ℝ) : ℝ := ∑ i, coeff i * x ^ i.val

/-- `Huynh.local_to_value`, polynomial.py:115-118. -/
noncomputable def huynhValue {n : Nat} (coeff : Fin n → ℝ) (x : ℝ) : ℝ × ℝ :=
  (huynhRight coeff (-x), huynhRight coeff x)

/-- `_grad_powers`, polynomial.py:103-104. -/
def gradPower (i : Nat) : Nat := if i = 0 then 0 else i - 1

/-- `Huynh._local_to_right_grad`, polynomial.py:120-121, with `_grad_coeff` (polynomial.py:99-101). -/
noncomputable def huynhRightGrad {n : Nat} (coeff : Fin n → ℝ) (x : ℝ) : ℝ :=
  ∑ i, (coeff i * i.val) * x ^ gradPower i.val

/-- `Huynh.local_to_gradient`, polynomial.py:123-126. -/
noncomputable def huynhGradient {n : Nat} (coeff : Fin n → ℝ) (x : ℝ) : ℝ × ℝ :=
  (-huynhRightGrad coeff (-x), huynhRightGrad coeff x)

/-! ### Lagrange -/

/-- `IthLagrange.local_to_value`, polynomial.py:215-223. -/
noncomputable def lagrangeValue {n : Nat} (points : Fin n → ℝ) (i : Fin n) (x : ℝ) : ℝ :=
  (List.finRange n).foldl (fun value j =>
    if j = i then value
    else
      let dividend := x - points j
      let divisor := points i - points j
      value * (dividend / divisor)) 1

/-- `IthLagrange.local_to_gradient`, polynomial.py:225-238. -/
noncomputable def lagrangeGradient {n : Nat} (points : Fin n → ℝ) (i : Fin n) (x : ℝ) : ℝ :=
  (List.finRange n).foldl (fun value j =>
    if j = i then value
    else
      let s := (List.finRange n).foldl (fun (s : ℝ × ℝ) k =>
        if k = i ∨ k = j then s
        else (s.1 * (x - points k), s.2 * (points i - points k))) (1, points i - points j)
      value + s.1 / s.2) 0

/-- `LagrangeBasis.local_to_value`, polynomial.py:262-266. -/
noncomputable def basisValue {n : Nat} (points : Fin n → ℝ) (x : ℝ) : Fin n → ℝ :=
  fun i => lagrangeValue points i x

/-- `LagrangeBasis.local_to_gradient`, polynomial.py:268-272. -/
noncomputable def basisGradient {n : Nat} (points : Fin n → ℝ) (x : ℝ) : Fin n → ℝ :=
  fun i => lagrangeGradient points i x

end MiniCFD.PyPoly
