import Mathlib.Analysis.SpecialFunctions.Trigonometric.Basic
import Mathlib.Tactic.NormNum

/-!
# The selective filter of the Python code

`/repo/python/filter.py`: class `Selective`.  Arrays are lists of real numbers; the decimal coefficients are
the exact decimals, rounding is left out.  `none` is an `IndexError`.  The symmetry check of the constructor
(L24-L25) always passes; the constructor prints a number (L23), which is left out.
-/

namespace MiniCFD.PyFilter

/-- `Selective.coeff_` (filter.py L6-L18), `0` outside of the table. -/
noncomputable def coeff : ℕ → ℝ
  | 0 => -0.001446093078167
  | 1 => 0.012396449873964
  | 2 => -0.049303775636020
  | 3 => 0.120198310245186
  | 4 => -0.199250131285813
  | 5 => 0.234810479761700
  | 6 => -0.199250131285813
  | 7 => 0.120198310245186
  | 8 => -0.049303775636020
  | 9 => 0.012396449873964
  | 10 => -0.001446093078167
  | _ => 0

/-- `array[i]` of NumPy: negative indices count from the end, others beyond the ends raise. -/
def get (a : List ℝ) (i : ℤ) : Option ℝ :=
  if 0 ≤ i then a[i.toNat]? else if 0 ≤ i + a.length then a[(i + a.length).toNat]? else none

/-- `self.coeff_.dot(old_array[i - width : i + width + 1])` (filter.py L32). -/
noncomputable def dotSlice (a : List ℝ) (i : ℕ) : Option ℝ :=
  (List.range 11).foldlM (fun (d : ℝ) (k : ℕ) => (get a ((i : ℤ) - 5 + k)).map fun x => d + coeff k * x) 0

/-- `d_i` near the left end of a periodic array (filter.py L36-L39). -/
noncomputable def dotLeft (a : List ℝ) (i : ℕ) : Option ℝ :=
  (get a i).bind fun x =>
    (List.range' 1 5).foldlM (fun (d : ℝ) (j : ℕ) =>
      (get a ((i : ℤ) + j)).bind fun r => (get a ((i : ℤ) - j)).map fun l =>
        d + r * coeff (5 + j) + l * coeff (5 - j)) (x * coeff 5)

/-- `d_i` near the right end of a periodic array (filter.py L42-L46). -/
noncomputable def dotRight (a : List ℝ) (i : ℕ) : Option ℝ :=
  (get a i).bind fun x =>
    (List.range' 1 5).foldlM (fun (d : ℝ) (j : ℕ) =>
      (get a (((i : ℤ) + j) % a.length)).bind fun r => (get a ((i : ℤ) - j)).map fun l =>
        d + r * coeff (5 + j) + l * coeff (5 - j)) (x * coeff 5)

/-- A loop with body `new_array[i] -= sigma * d_i`. -/
def sweep (d : ℕ → Option ℝ) (sigma : ℝ) (is : List ℕ) (new : List ℝ) : Option (List ℝ) :=
  is.foldlM (fun (new : List ℝ) i => (d i).bind fun y => new[i]?.map fun x => new.set i (x - sigma * y)) new

/-- `Selective.filter` (filter.py L27-L48).  For fewer than five points the last loop of the periodic case would
start at a negative index; the loop before it has failed then. -/
noncomputable def filter (periodic : Bool) (old : List ℝ) (sigma : ℝ) : Option (List ℝ) :=
  (sweep (dotSlice old) sigma (List.range' 5 (old.length - 10)) old).bind fun new =>
    if periodic then
      (sweep (dotLeft old) sigma (List.range 5) new).bind
        (sweep (dotRight old) sigma (List.range' (old.length - 5) 5))
    else some new

/-- `Selective.damping` (filter.py L50-L55). -/
noncomputable def damping (theta : ℝ) : ℝ :=
  (List.range' 1 5).foldl (fun damp j => damp + 2 * coeff (5 + j) * Real.cos (j * theta)) (coeff 5 * Real.cos (0 * theta))

end MiniCFD.PyFilter
