import Verif.Model.PyLimiter
import Mathlib.Analysis.SpecialFunctions.Pow.Real
import Mathlib.Analysis.SpecialFunctions.Log.Base

/-!
Model of python/detector.py on top of the expansions of `Model/PyExpansion.lean`.  Values have `m + 1` components; a
scalar equation is the case `m = 0` (`get_scalar_smoothness` returns the ratio itself instead of the maximum of one
ratio, detector.py:35-39).  All operations on values are componentwise.  Real numbers for floating point numbers.
-/

namespace MiniCFD.PyDetector

open MiniCFD.PyQuad MiniCFD.PyExpansion MiniCFD.PyLimiter

/-- Values of a system of `m + 1` equations. -/
abbrev Value (m : Nat) := Fin (m + 1) → ℝ

/-- An element with what `neighbor_expansions` returns. -/
structure Cell (p m : Nat) where
  setup : Setup p
  state : State p (Value m)
  left : Option (Neighbour p (Value m))
  right : Option (Neighbour p (Value m))

/-- The constant `1e-8` that keeps divisors positive. -/
noncomputable def tiny : ℝ := 1 / 10 ^ 8

/-- `get_scalar_smoothness`, detector.py:35-39. -/
noncomputable def scalarSmoothness {m : Nat} (dividend divisor : Value m) : ℝ :=
  Finset.univ.sup' Finset.univ_nonempty fun k => dividend k / divisor k

open scoped Classical in
/-- `SmoothnessBased.get_troubled_cell_indices`, detector.py:41-48, for the maximum `bound` of each element. -/
noncomputable def troubled {n : Nat} (bound : ℝ) (smoothness : Fin n → ℝ) : List (Fin n) :=
  (List.finRange n).foldl (fun is i => if smoothness i > bound then is ++ [i] else is) []

/-- `All.get_troubled_cell_indices`, detector.py:19-20. -/
def all (n : Nat) : List (Fin n) := List.finRange n

section Jumps
variable {p m : Nat}

/-- `get_boundary_derivatives(0, left, False)` of a neighbour.  A neighbour behind a periodic boundary is wrapped by
`expansion.Shifted`, which multiplies the derivatives of the basis with the coefficients; the values are the same. -/
noncomputable def boundaryValue (b : Neighbour p (Value m)) (left : Bool) : Value m := boundaryDerivatives b.setup b.state 0 left

open scoped Classical in
/-- The body of the loop of `Krivodonova2004.get_smoothness_values`, detector.py:77-107; `velocity` is
`_get_normal_velocity` (detector.py:63-72). -/
noncomputable def krivodonova (velocity : Value m → ℝ) (c : Cell p m) : ℝ :=
  let norm : Value m := fun k => |c.state.average k| + tiny
  let ratio := c.setup.coordinate.length ^ (((p : ℝ) + 1) / 2)
  let fromLeft : Value m :=
    match c.left with
    | none => 0
    | some b =>
      let value := boundaryDerivatives c.setup c.state 0 true
      if velocity value ≥ 0 then fun k => |value k - boundaryValue b false k| else 0
  let fromRight : Value m :=
    match c.right with
    | none => 0
    | some b =>
      let value := boundaryDerivatives c.setup c.state 0 false
      if velocity value ≤ 0 then fun k => |value k - boundaryValue b true k| else 0
  scalarSmoothness (fun k => 0 + fromLeft k + fromRight k) (fun k => ratio * norm k)

/-- `i_curr - 1` as an index into an array of `n + 1` entries: -1 is the last one. -/
def previous {n : Nat} (i : Fin (n + 1)) : Fin (n + 1) := if i = 0 then Fin.last n else ⟨i - 1, by omega⟩

/-- `(i_curr + 1) % n_cell`. -/
def next {n : Nat} (i : Fin (n + 1)) : Fin (n + 1) := ⟨(i + 1) % (n + 1), Nat.mod_lt _ (Nat.succ_pos n)⟩

/-- `LiWanAi2011.get_smoothness_values`, detector.py:122-155. -/
noncomputable def liWanAi {n : Nat} (cells : Fin (n + 1) → Cell p m) (i : Fin (n + 1)) : ℝ :=
  let averages : Fin (n + 1) → Value m := fun i k => |(cells i).state.average k|
  let c := cells i
  let center := c.setup.coordinate.xCenter
  let value := c.setup.value c.state center
  let (count1, norm1, dividend1) : ℝ × Value m × Value m :=
    match c.left with
    | none => (0, averages i, 0)
    | some b => (0 + 1, fun k => min (averages i k) (averages (previous i) k), fun k => 0 + |value k - b.value center k|)
  let (count2, norm2, dividend2) : ℝ × Value m × Value m :=
    match c.right with
    | none => (count1, norm1, dividend1)
    | some b => (count1 + 1, fun k => min (norm1 k) (averages (next i) k), fun k => dividend1 k + |value k - b.value center k|)
  let ratio := count2 * c.setup.coordinate.length ^ (((p : ℝ) + 1) / 2)
  scalarSmoothness dividend2 (fun k => ratio * (norm2 k + tiny))

/-- `LiWanAi2011.max_smoothness`, detector.py:157-158. -/
def liWanAiBound (p : Nat) : ℝ := 1 + 2 * (if p > 2 then 1 else 0)

/-- `ZhuJun2021._integrate`, detector.py:204-207. -/
noncomputable def difference (c : Cell p m) (b : Neighbour p (Value m)) : Value m :=
  fun k => |c.setup.integrator.integrate (fun x => c.setup.value c.state x - b.value x) k|

/-- `ZhuJun2021.get_smoothness_values`, detector.py:173-202. -/
noncomputable def zhuJun {n : Nat} (cells : Fin (n + 1) → Cell p m) (i : Fin (n + 1)) : ℝ :=
  let norms : Fin (n + 1) → Value m := fun i k =>
    (cells i).setup.integrator.norm1 fun x => (cells i).setup.value (cells i).state x k
  let c := cells i
  let (norm1, dividend1) : Value m × Value m :=
    match c.left with
    | none => (norms i, 0)
    | some b => (fun k => min (norms i k) (norms (previous i) k), fun k => max 0 (difference c b k))
  let (norm2, dividend2) : Value m × Value m :=
    match c.right with
    | none => (norm1, dividend1)
    | some b => (fun k => min (norm1 k) (norms (next i) k), fun k => max (dividend1 k) (difference c b k))
  scalarSmoothness dividend2 (fun k => (norm2 k + tiny) * c.setup.coordinate.length)

end Jumps

section Samples
variable {m : Nat}

/-- `_psi_c`, `_xi` and `_epsilon`, detector.py:216-220. -/
noncomputable def psiC : ℝ := 0.4
noncomputable def xi : ℝ := 0.01
noncomputable def epsilon : ℝ := 0.9 * psiC / (1 - 0.9 * psiC) * xi ^ 2

/-- The number of samples in each element, detector.py:236-237. -/
def perCell (p : Nat) : Nat := max (p + 1) 3

/-- Sample `j` of an element, detector.py:249-255. -/
noncomputable def sampleAt {p : Nat} (c : Cell p m) (j : Nat) : Value m :=
  let delta := c.setup.coordinate.length / perCell p / 2
  c.setup.value c.state (Integrator.linspace (c.setup.coordinate.xLeft + delta) (c.setup.coordinate.xRight - delta) (perCell p - 1) j)

/-- `u_values`: the samples of all elements in a row, detector.py:246-255. -/
noncomputable def samples {p n : Nat} (cells : Fin (n + 1) → Cell p m) (i : Nat) : Value m :=
  if h : i / perCell p < n + 1 then sampleAt (cells ⟨i / perCell p, h⟩) (i % perCell p) else 0

/-- An index of a NumPy array of `count` entries that may be negative. -/
def wrap (count : Nat) (i : Int) : Nat := if i < 0 then (i + count).toNat else i.toNat

/-- `psi_values[i_node]`, detector.py:258-266. -/
noncomputable def psiAt (count : Nat) (u : Nat → Value m) (i : Nat) : Value m := fun k =>
  let a := |u i k - u (wrap count (i - 1)) k| + |u i k - 2 * u (wrap count (i - 1)) k + u (wrap count (i - 2)) k|
  let b := |u i k - u ((i + 1) % count) k| + |u i k - 2 * u ((i + 1) % count) k + u ((i + 2) % count) k|
  (2 * a * b + epsilon) / (a ^ 2 + b ^ 2 + epsilon)

/-- `psi_values` after detector.py:267-269. -/
noncomputable def psiValues (periodic : Bool) (count : Nat) (u : Nat → Value m) (i : Nat) : Value m :=
  if periodic then psiAt count u i
  else if i = 0 ∨ i = 1 ∨ i = count - 1 ∨ i = count - 2 then fun _ => psiC else psiAt count u i

open scoped Classical in
/-- The test of a node, detector.py:274-278. -/
noncomputable def badNode (count : Nat) (psi : Nat → Value m) (i : Nat) : Bool :=
  decide (∃ k, min (min (psi i k) (psi (wrap count (i - 1)) k)) (psi ((i + 1) % count) k) < psiC)

/-- `LiYanHui2022.get_troubled_cell_indices`, detector.py:231-281.  The sample points are computed once for each grid
object; the values are computed in each call. -/
noncomputable def liYanHui {p n : Nat} (periodic : Bool) (cells : Fin (n + 1) → Cell p m) : List (Fin (n + 1)) :=
  let count := (n + 1) * perCell p
  let psi := psiValues periodic count (samples cells)
  (List.finRange (n + 1)).foldl (fun (is : List (Fin (n + 1))) (i : Fin (n + 1)) =>
    if (List.range (perCell p)).any fun j => badNode count psi (perCell p * i + j) then is ++ [i] else is) []

end Samples

section Modes
variable {p m : Nat}

/-- `get_mode_energy` of a component, expansion.py:571-574. -/
noncomputable def energy (s : Setup p) (coeff : Fin (p + 1) → Value m) (k : Fin (m + 1)) (n : Fin (p + 1)) : ℝ :=
  s.modeWeight n * coeff n k ^ 2

/-- `Persson2006.get_smoothness_value`, detector.py:305-325.  For an expansion that is not a `Legendre` the call of
`inner_product` has one argument too many (concept.py:179): `TypeError`. -/
noncomputable def perssonSensor (s : Setup p) (st : State p (Value m)) : Option (Value m) :=
  match s.kind with
  | .modal => some fun k => energy s st.coeff k (Fin.last p) / (0 + ∑ n, energy s st.coeff k n + tiny)
  | _ => none

/-- The body of the loop of `Persson2006.get_smoothness_values`, detector.py:327-337; `0**(-3)` raises. -/
noncomputable def persson (c : Cell p m) : Option ℝ :=
  if p = 0 then none
  else (perssonSensor c.setup c.state).map fun sensor => scalarSmoothness sensor fun _ => ((p : ℝ) ^ 3)⁻¹

/-- `_b2(p, n)`, detector.py:347-364. -/
noncomputable def b2 (p n : Nat) : ℝ := ((n : ℝ) ^ (2 * p))⁻¹ / ∑ j ∈ Finset.range p, (((j : ℝ) + 1) ^ (2 * p))⁻¹

/-- `add_modal_decay`, detector.py:372-378. -/
noncomputable def addModalDecay (e : Fin (p + 1) → ℝ) (n : Nat) : ℝ :=
  let at_ := fun n : Nat => if h : n < p + 1 then e ⟨n, h⟩ else 0
  if n = 0 then at_ 0 else at_ n + (∑ k, e k + tiny) * b2 p n

/-- Entry `n` after `apply_skyline`, detector.py:380-386: the last two entries, then down to entry 1. -/
noncomputable def skyline (p : Nat) (e : Nat → ℝ) (n : Nat) : ℝ :=
  if p ≤ n + 1 then max |e p| |e (p - 1)| else if n = 0 then e 0 else max (e n) (skyline p e (n + 1))
  termination_by p - n

/-- `get_least_square_slope`, detector.py:388-402. -/
noncomputable def slope (p : Nat) (e : Nat → ℝ) : ℝ :=
  let x : Nat → ℝ := fun k => -2 * Real.logb 10 (k + 1)
  let y : Nat → ℝ := fun k => Real.logb 10 (e (k + 1))
  let ks := Finset.Ico 1 p
  let xSum := ∑ k ∈ ks, x k
  let ySum := Real.logb 10 (e 1) + ∑ k ∈ ks, y k
  let xxSum := ∑ k ∈ ks, x k * x k
  let xySum := ∑ k ∈ ks, x k * y k
  (xySum - xSum * ySum / p) / (xxSum - xSum * xSum / p)

/-- `Kloeckner2011.get_smoothness_value`, detector.py:404-417, for a component.  For an expansion that is not a
`Legendre` a new `Legendre` is made whose coefficients are never set: `memory` stands for what the new array
(expansion.py:540) happens to hold.  The table ends at degree 100, degree 0 has no last but one entry, and degree 1 gives
`nan`: `none` for these. -/
noncomputable def kloecknerSlope (memory : Fin (p + 1) → Value m) (s : Setup p) (st : State p (Value m)) (k : Fin (m + 1)) :
    Option ℝ :=
  let coeff := match s.kind with
    | .modal => st.coeff
    | _ => memory
  if 2 ≤ p ∧ p ≤ 100 then some (slope p (skyline p (addModalDecay (energy s coeff k)))) else none

/-- Whether the smoothness `1.5 / slope` of a component exceeds 1, detector.py:419-427; NumPy divides by zero to
infinity. -/
noncomputable def steep (slope : ℝ) : Prop := slope = 0 ∨ 1.5 / slope > 1

/-- Whether an element is reported: the maximum over the components exceeds 1. -/
noncomputable def kloeckner (memory : Fin (p + 1) → Value m) (c : Cell p m) : Prop :=
  ∃ k s, kloecknerSlope memory c.setup c.state k = some s ∧ steep s

end Modes

end MiniCFD.PyDetector
