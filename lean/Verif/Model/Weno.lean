import Verif.Model.Projection
import Verif.Model.Taylor
import Mathlib.Analysis.SpecialFunctions.Pow.Real

/-!
# WENO limiters

Model of `mini/limiter/weno.hpp` and of the functions `GetSmoothness` of `mini/basis/taylor.hpp`.  A
neighbour enters by the function that its projection represents (`GlobalToValue`), which is all that
`Approximate` uses of it.  Printing is left out.
-/

namespace MiniCFD.Weno

open MiniCFD.Ortho MiniCFD.Projection

/-- What `weno::GetSmoothness` uses of a Taylor class: `GetPdvValue` on one row of coefficients, with the
centre of the cell already subtracted, and `GetSmoothness` on one row of integrals. -/
structure TaylorOps (Pt : Type*) (n : Nat) where
  pdv : (Fin (n + 1) → ℝ) → Pt → Fin (n + 1) → ℝ
  smooth : (Fin (n + 1) → ℝ) → ℝ → ℝ

/-- A point in space. -/
abbrev Point := ℝ × ℝ × ℝ

/-- `Taylor<Scalar, 3, 0>::GetSmoothness`, taylor.hpp:154-160, weno.hpp:25-28. -/
noncomputable def taylor0 (center : Point) : TaylorOps Point 0 where
  pdv c p := Taylor.pdv30 c (p.1 - center.1) (p.2.1 - center.2.1) (p.2.2 - center.2.2)
  smooth _ _ := 0

/-- `Taylor<Scalar, 3, 1>::GetSmoothness`, taylor.hpp:195-203, weno.hpp:25-28. -/
noncomputable def taylor1 (center : Point) : TaylorOps Point 3 where
  pdv c p := Taylor.pdv31 c (p.1 - center.1) (p.2.1 - center.2.1) (p.2.2 - center.2.2)
  smooth q _ := q 1 + q 2 + q 3

/-- `Taylor<Scalar, 3, 2>::GetSmoothness`, taylor.hpp:279-298, weno.hpp:25-28. -/
noncomputable def taylor2 (center : Point) : TaylorOps Point 9 where
  pdv c p := Taylor.pdv32 c (p.1 - center.1) (p.2.1 - center.2.1) (p.2.2 - center.2.2)
  smooth q volume :=
    let w1 := volume ^ ((2 : ℝ) / 3 - 1)
    let w2 := volume ^ ((4 : ℝ) / 3 - 1)
    (q 1 + q 2 + q 3) * w1 + q 4 * w2 + q 5 * w2 + q 6 * w2 + q 7 * w2 + q 8 * w2 + q 9 * w2

/-- `Taylor<Scalar, 3, 3>::GetSmoothness`, taylor.hpp:476-507, weno.hpp:25-28. -/
noncomputable def taylor3 (center : Point) : TaylorOps Point 19 where
  pdv c p := Taylor.pdv33 c (p.1 - center.1) (p.2.1 - center.2.1) (p.2.2 - center.2.2)
  smooth q volume :=
    let w1 := volume ^ ((2 : ℝ) / 3 - 1)
    let w2 := volume ^ ((4 : ℝ) / 3 - 1)
    let w3 := volume
    (q 1 + q 2 + q 3) * w1 + q 4 * w2 + q 5 * w2 + q 6 * w2 + q 7 * w2 + q 8 * w2 + q 9 * w2
      + q 10 * w3 + q 11 * w3 + q 12 * w3 + q 13 * w3 + q 14 * w3 + q 15 * w3 + q 16 * w3 + q 17 * w3
      + q 18 * w3 + q 19 * w3

variable {Pt : Type*} {n K : Nat}

/-- `weno::GetSmoothness`, weno.hpp:20-34. -/
noncomputable def smoothness (t : TaylorOps Pt n) (b : Basis Pt n) (coeff : Coeff K n) : Value K := fun r =>
  t.smooth (fun j => integrate (fun p => t.pdv (coeffOnTaylor b coeff r) p j
    * t.pdv (coeffOnTaylor b coeff r) p j) b.rule) (measure b.linear)

/-- One neighbour in `Borrow`, weno.hpp:80-83 and 198-200. -/
noncomputable def borrowOne (b : Basis Pt n) (own : Coeff K n) (f : Pt → Value K) : Coeff K n :=
  let adj := project b f
  shift b (fun r => average b own r - average b adj r) adj

/-- The borrowed projections in `Borrow`, weno.hpp:74-98 and 193-203: `old_projections_` without its last
entry, which is the projection of the cell itself. -/
noncomputable def borrow (b : Basis Pt n) (own : Coeff K n) (adj : List (Pt → Value K)) : List (Coeff K n) :=
  adj.map (borrowOne b own)

/-- A weight after its modification by the smoothness, weno.hpp:107-110 and 224-227. -/
noncomputable def modify (t : TaylorOps Pt n) (b : Basis Pt n) (eps w : ℝ) (c : Coeff K n) : Value K := fun r =>
  w / ((smoothness t b c r + eps) * (smoothness t b c r + eps))

/-- The modified weights, weno.hpp:100-111 and 216-228: those of the borrowed projections, then that of the
cell itself. -/
noncomputable def weights (t : TaylorOps Pt n) (b : Basis Pt n) (w0 eps : ℝ) (borrowed : List (Coeff K n))
    (own : Coeff K n) : List (Value K) × Value K :=
  (borrowed.map (modify t b eps w0), modify t b eps (w0 * -(borrowed.length : ℝ) + 1) own)

/-- `std::accumulate(weights.begin(), weights.end(), sum)`, weno.hpp:113-114 and 230-231. -/
noncomputable def total (ws : List (Value K) × Value K) : Value K :=
  (ws.1 ++ [ws.2]).foldl (fun s w r => s r + w r) fun _ => 0

open scoped Classical in
/-- The weighted sum of the projections, weno.hpp:99-126 and 215-242; `none` when a division by zero
happens. -/
noncomputable def weighted (t : TaylorOps Pt n) (b : Basis Pt n) (w0 eps : ℝ) (borrowed : List (Coeff K n))
    (own : Coeff K n) : Option (Coeff K n) :=
  if ∃ c ∈ borrowed ++ [own], ∃ r, smoothness t b c r + eps = 0 then none
  else
    let ws := weights t b w0 eps borrowed own
    let sum := total ws
    if ∃ r, sum r = 0 then none
    else
      let normalize := fun (w : Value K) r => w r / sum r
      some ((List.zipWith (fun w c => scaleRows (normalize w) c) ws.1 borrowed).foldl plus
        (scaleRows (normalize ws.2) own))

/-- `Lazy::operator()`, weno.hpp:61-67. -/
noncomputable def lazyLimit (t : TaylorOps Pt n) (b : Basis Pt n) (w0 eps : ℝ) (own : Coeff K n)
    (adj : List (Pt → Value K)) : Option (Coeff K n) :=
  weighted t b w0 eps (borrow b own adj) own

/-- What `Eigen` uses of an adjacent face: its eigenvector matrices at a state (`UpdateEigenMatrices`, `L`,
`R`), and the volume of the cell on the other side. -/
structure Face (K : Nat) where
  left : Value K → Matrix (Fin K) (Fin K) ℝ
  right : Value K → Matrix (Fin K) (Fin K) ℝ
  volume : ℝ

/-- `ReconstructOnFace`, weno.hpp:208-245, without the scaling by volume. -/
noncomputable def onFace (t : TaylorOps Pt n) (b : Basis Pt n) (w0 eps : ℝ) (borrowed : List (Coeff K n))
    (own : Coeff K n) (face : Face K) : Option (Coeff K n) :=
  let bigU := average b own
  let rotate := leftMultiply (n := n) (face.left bigU)
  (weighted t b w0 eps (borrowed.map rotate) (rotate own)).map (leftMultiply (face.right bigU))

/-- The loop in `Eigen::Reconstruct` with the scaling by volume, weno.hpp:245-249 and 256-261. -/
noncomputable def accumulate (t : TaylorOps Pt n) (b : Basis Pt n) (w0 eps : ℝ) (borrowed : List (Coeff K n))
    (own : Coeff K n) : List (Face K) → Coeff K n × ℝ → Option (Coeff K n × ℝ)
  | [], s => some s
  | f :: fs, (c, v) =>
    match onFace t b w0 eps borrowed own f with
    | none => none
    | some d => accumulate t b w0 eps borrowed own fs (plus c (scale f.volume d), v + f.volume)

/-- `Eigen::operator()`, weno.hpp:181-186 and 255-263; `none` when a division by zero happens or the
assertion in line 209 fails. -/
noncomputable def eigenLimit (t : TaylorOps Pt n) (b : Basis Pt n) (w0 eps : ℝ) (own : Coeff K n)
    (adj : List (Pt → Value K)) (faces : List (Face K)) : Option (Coeff K n) :=
  if faces.length ≠ adj.length then none
  else
    match accumulate t b w0 eps (borrow b own adj) own faces (fun _ _ => 0, 0) with
    | none => none
    | some (c, v) => divide v c

/-- `Dummy::operator()`, weno.hpp:278-280. -/
def dummyLimit (own : Coeff K n) : Coeff K n := own

/-! ### The troubled-cell indicator -/

/-- What `IsNotSmooth` uses of the cell: its average, its value at its centre, its volume; of each
neighbour: its value at the centre of the cell, and its average. -/
structure Patch (K : Nat) where
  average : Value K
  value : Value K
  volume : ℝ
  adj : List (Value K × Value K)

/-- `max_abs_averages[i]` after the loop, weno.hpp:154-157 and 165-166. -/
noncomputable def maxAbs (c : Patch K) (i : Fin K) : ℝ :=
  c.adj.foldl (fun m a => max m |a.2 i|) (max 1e-9 |c.average i|)

/-- `sum_abs_differences[i]` after the loop, weno.hpp:158-164. -/
noncomputable def sumAbs (c : Patch K) (i : Fin K) : ℝ :=
  c.adj.foldl (fun s a => s + |c.value i - a.1 i|) 0

open scoped Classical in
/-- `IsNotSmooth`, weno.hpp:152-180, for degree `P` in `D` dimensions and components `0, K - 1` given as
`components`.  When the divisor is zero the quotient is not a number or infinite: with a zero sum the
comparison is false, otherwise true. -/
noncomputable def isNotSmooth (P D : Nat) (components : List (Fin K)) (c : Patch K) : Bool :=
  let divisor := c.volume ^ (((P : ℝ) + 1) / 2 / D) * c.adj.length
  let reference : ℝ := if P < 3 then 1 else 3
  components.any fun i =>
    if divisor = 0 then decide (0 < sumAbs c i)
    else decide (sumAbs c i / maxAbs c i / divisor > reference)

end MiniCFD.Weno
