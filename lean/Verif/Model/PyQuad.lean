import Mathlib.Analysis.Real.Sqrt
import Mathlib.Algebra.Module.Basic
import Mathlib.Data.Fin.VecNotation
import Mathlib.Data.List.FinRange
import Mathlib.Data.Rat.Cast.Defs

/-!
# Model of python/coordinate.py, python/integrator.py and `concept.Integrator`

Real numbers for floating point numbers.  `special.roots_legendre` is not modelled: a rule of
Gauss-Legendre is any rule with its exactness.  The bisection that computes Lobatto rules with more
than ten points is not modelled either.
-/

namespace MiniCFD.PyQuad

/-! ### Coordinates -/

/-- `coordinate.Linear(x_left, x_right)`, coordinate.py:48-56, and `coordinate.Shifted`,
coordinate.py:6-12. -/
inductive Coordinate where
  | linear (xLeft xRight : ℝ)
  | shifted (unshifted : Coordinate) (shift : ℝ)

namespace Coordinate

/-- `x_left`, coordinate.py:32-34 and 73-74. -/
def xLeft : Coordinate → ℝ
  | linear l _ => l
  | shifted c s => c.xLeft + s

/-- `x_right`, coordinate.py:36-38 and 76-77. -/
def xRight : Coordinate → ℝ
  | linear _ r => r
  | shifted c s => c.xRight + s

/-- `x_center`, coordinate.py:40-42 and 79-80. -/
noncomputable def xCenter : Coordinate → ℝ
  | linear l r => (l + r) / 2
  | shifted c s => c.xCenter + s

/-- `length`, coordinate.py:44-45 and concept.py:79-82. -/
def length : Coordinate → ℝ
  | linear l r => r - l
  | shifted c _ => c.length

/-- `local_to_jacobian`, coordinate.py:25-26 and 67-68. -/
noncomputable def localToJacobian : Coordinate → ℝ → ℝ
  | linear l r, _ => (r - l) / 2
  | shifted c _, x => c.localToJacobian x

/-- `global_to_jacobian`, coordinate.py:28-30 and 70-71. -/
noncomputable def globalToJacobian : Coordinate → ℝ → ℝ
  | linear l r, _ => (r - l) / 2
  | shifted c s, x => c.globalToJacobian (x - s)

/-- `local_to_global`, coordinate.py:17-19 and 61-62. -/
noncomputable def localToGlobal : Coordinate → ℝ → ℝ
  | linear l r, x => (l + r) / 2 + x * ((r - l) / 2)
  | shifted c s, x => c.localToGlobal x + s

/-- `global_to_local`, coordinate.py:21-23 and 64-65. -/
noncomputable def globalToLocal : Coordinate → ℝ → ℝ
  | linear l r, x => (x - (l + r) / 2) / ((r - l) / 2)
  | shifted c s, x => c.globalToLocal (x - s)

end Coordinate

/-! ### Rules -/

/-- What `get_local_points(m + 1)` and `get_local_weights(m + 1)` return.  There is always a point:
concept.py:98. -/
structure Rule (m : Nat) where
  x : Fin (m + 1) → ℝ
  w : Fin (m + 1) → ℝ

/-- A table of decimal numbers. -/
structure Table (m : Nat) where
  x : Fin (m + 1) → ℚ
  w : Fin (m + 1) → ℚ

def Table.rule {m : Nat} (t : Table m) : Rule m := ⟨fun i => (t.x i : ℝ), fun i => (t.w i : ℝ)⟩

/-- The branches `n_point == 7`, integrator.py:42-47 and 100-104. -/
def table7 : Table 6 :=
  let a : ℚ := -0.83022389627856708
  let b : ℚ := -0.46884879347071418
  ⟨![-1, a, b, 0, -b, -a, 1],
   ![0.0476190476190476, 0.2768260473615660, 0.4317453812098626, 0.4876190476190476,
     0.4317453812098626, 0.2768260473615660, 0.0476190476190476]⟩

/-- The branches `n_point == 8`, integrator.py:48-54 and 105-109. -/
def table8 : Table 7 :=
  let a : ℚ := -0.87174014850960668
  let b : ℚ := -0.59170018143314218
  let c : ℚ := -0.20929921790247885
  ⟨![-1, a, b, c, -c, -b, -a, 1],
   ![0.0357142857142857, 0.2107042271435061, 0.3411226924835044, 0.4124587946587039,
     0.4124587946587039, 0.3411226924835044, 0.2107042271435061, 0.0357142857142857]⟩

/-- The branches `n_point == 9`, integrator.py:55-62 and 110-115. -/
def table9 : Table 8 :=
  let a : ℚ := -0.89975799541146018
  let b : ℚ := -0.67718627951073762
  let c : ℚ := -0.36311746382617827
  ⟨![-1, a, b, c, 0, -c, -b, -a, 1],
   ![0.0277777777777778, 0.1654953615608056, 0.2745387125001618, 0.3464285109730465,
     0.3715192743764172, 0.3464285109730465, 0.2745387125001618, 0.1654953615608056,
     0.0277777777777778]⟩

/-- The branches `n_point == 10`, integrator.py:63-71 and 116-121. -/
def table10 : Table 9 :=
  let a : ℚ := -0.91953390816645864
  let b : ℚ := -0.73877386510550491
  let c : ℚ := -0.47792494981044459
  let d : ℚ := -0.16527895766638698
  ⟨![-1, a, b, c, d, -d, -c, -b, -a, 1],
   ![0.0222222222222222, 0.1333059908510700, 0.2248893420631265, 0.2920426836796839,
     0.3275397611838974, 0.3275397611838974, 0.2920426836796839, 0.2248893420631265,
     0.1333059908510700, 0.0222222222222222]⟩

/-- `GaussLobatto.get_local_points` and `get_local_weights`, integrator.py:22-127, for `m + 1` points.
For two points the general branch computes the ends and the weights `2 / 2 / 1`.  `none` for one point
(the assertion) and for more than ten (not modelled). -/
noncomputable def lobatto : (m : Nat) → Option (Rule m)
  | 1 => some ⟨![-1, 1], ![2 / 2 / 1, 2 / 2 / 1]⟩
  | 2 => some ⟨![-1, 0, 1], ![1 / 3, 4 / 3, 1 / 3]⟩
  | 3 =>
    let a := -√(1 / 5)
    some ⟨![-1, a, -a, 1], ![1 / 6, 5 / 6, 5 / 6, 1 / 6]⟩
  | 4 =>
    let a := -√21 / 7
    some ⟨![-1, a, 0, -a, 1], ![1 / 10, 49 / 90, 32 / 45, 49 / 90, 1 / 10]⟩
  | 5 =>
    let a := -√((7 + 2 * √7) / 21)
    let b := -√((7 - 2 * √7) / 21)
    some ⟨![-1, a, b, -b, -a, 1],
      ![1 / 15, (14 - √7) / 30, (14 + √7) / 30, (14 + √7) / 30, (14 - √7) / 30, 1 / 15]⟩
  | 6 => some table7.rule
  | 7 => some table8.rule
  | 8 => some table9.rule
  | 9 => some table10.rule
  | _ => none

/-! ### Integrators -/

/-- `concept.Integrator`. -/
structure Integrator (m : Nat) where
  coordinate : Coordinate
  points : Fin (m + 1) → ℝ
  weights : Fin (m + 1) → ℝ

/-- `Integrator.__init__`, concept.py:97-107. -/
noncomputable def Rule.integrator {m : Nat} (r : Rule m) (c : Coordinate) : Integrator m :=
  ⟨c, fun i => c.localToGlobal (r.x i), fun i => r.w i * c.localToJacobian (r.x i)⟩

namespace Integrator
variable {m : Nat} {V : Type*} [AddCommGroup V] [Module ℝ V]

/-- `integrate(function, index=True)`, concept.py:127-135. -/
def integrateIndex (q : Integrator m) (f : Fin (m + 1) → V) : V :=
  (List.finRange m).foldl (fun value i => value + q.weights i.succ • f i.succ) (q.weights 0 • f 0)

/-- `integrate(function)`, concept.py:127-140. -/
def integrate (q : Integrator m) (f : ℝ → V) : V :=
  (List.finRange m).foldl (fun value i => value + q.weights i.succ • f (q.points i.succ))
    (q.weights 0 • f (q.points 0))

/-- `average`, concept.py:142-146. -/
noncomputable def average (q : Integrator m) (f : ℝ → V) : V :=
  (q.coordinate.length)⁻¹ • q.integrate f

/-- `norm_1`, concept.py:148-153, of a scalar function. -/
def norm1 (q : Integrator m) (f : ℝ → ℝ) : ℝ := q.integrate fun x => |f x|

/-- `norm_2`, concept.py:155-160, of a scalar function. -/
noncomputable def norm2 (q : Integrator m) (f : ℝ → ℝ) : ℝ := √(q.integrate fun x => |f x| ^ 2)

/-- `inner_product`, concept.py:179-183, of scalar functions. -/
def innerProduct (q : Integrator m) (φ ψ : ℝ → ℝ) : ℝ := q.integrate fun x => φ x * ψ x

/-- `numpy.linspace(a, b, n + 1)`. -/
noncomputable def linspace (a b : ℝ) (n : Nat) (i : Nat) : ℝ := a + i * ((b - a) / n)

/-- `norm_infty(function, n + 1)`, concept.py:162-177, of a scalar function. -/
noncomputable def normInfty (q : Integrator m) (f : ℝ → ℝ) (n : Nat) : ℝ :=
  let points := linspace q.coordinate.xLeft q.coordinate.xRight n
  (List.range n).foldl (fun value i => max value |f (points (i + 1))|) |f (points 0)|

end Integrator

end MiniCFD.PyQuad
