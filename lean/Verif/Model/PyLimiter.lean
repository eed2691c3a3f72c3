import Verif.Model.PyExpansion

/-!
Model of python/limiter.py: the compact WENO limiters `ZhongXingHui2013` and `LiWanAi2020` on top of the
expansions of `Model/PyExpansion.lean`.  `XuXiaoRui2023` leaves two abstract methods undefined, so that no object of
that class can be made.
-/

namespace MiniCFD.PyLimiter

open MiniCFD.PyQuad MiniCFD.PyExpansion

/-- What the limiters know of a candidate polynomial: its degree, its Taylor coefficients at the centre of
the element, and the integrator it carries (with the coordinate). -/
structure Candidate (V : Type*) where
  degree : Nat
  taylor : Fin (degree + 1) → V
  last : Nat
  integrator : Integrator last

/-- An expansion returned by `neighbor_expansions`: an expansion of a neighbouring element, wrapped by
`expansion.Shifted` across a periodic boundary (`shift`, which is 0 without wrapper). -/
structure Neighbour (p : Nat) (V : Type*) where
  setup : Setup p
  state : State p V
  shift : ℝ

section Expansions
variable {p : Nat} {V : Type*} [AddCommGroup V] [Module ℝ V]

/-- `global_to_value` of a neighbour, expansion.py:38-40. -/
noncomputable def Neighbour.value (b : Neighbour p V) (x : ℝ) : V := b.setup.value b.state (x - b.shift)

/-- `integrator()` of a neighbour, expansion.py:17-22: the same rule on the shifted coordinate. -/
noncomputable def Neighbour.integrator (b : Neighbour p V) : Integrator p :=
  ⟨.shifted b.setup.integrator.coordinate b.shift, fun i => b.setup.integrator.points i + b.shift, b.setup.integrator.weights⟩

/-- An expansion as a candidate for itself. -/
def own (s : Setup p) (st : State p V) : Candidate V := ⟨p, st.taylor, p, s.integrator⟩

/-- `ZhongXingHui2013._borrow_expansion`, limiter.py:99-109. -/
noncomputable def zxhBorrow (s : Setup p) (st : State p V) (b : Neighbour p V) : Candidate V :=
  let thisAverage := st.average
  let thatAverage := s.integrator.average b.value
  own s (approximate s fun x => b.value x + thisAverage - thatAverage)

/-- `ZhongXingHui2013.get_candidates`, limiter.py:127-133; the list holds the neighbours that are there. -/
noncomputable def zxhCandidates (s : Setup p) (st : State p V) (bs : List (Neighbour p V)) : List (Candidate V) :=
  own s st :: bs.map (zxhBorrow s st)

/-- `TruncatedLegendre(d, that)` as a candidate, expansion.py:649-658. -/
def truncated (d : Nat) (h : d ≤ p) (s : Setup p) (st : State p V) : Candidate V :=
  ⟨d, (truncate h s st).taylor, p, s.integrator⟩

/-- `LiWanAi2020._borrow_expansion`, limiter.py:170-183; `roots m` is what `roots_legendre(m + 1)` returns. -/
noncomputable def lwaBorrow (roots : (m : Nat) → Rule m) (s : Setup p) (st : State p V) (b : Neighbour p V) :
    Option (Candidate V) :=
  (modal s.coordinate (roots 1)).map fun s1 =>
    let phi := fun x => Vincent.legendre 1 (s.coordinate.globalToLocal x)
    let slope := (b.integrator.norm2 phi)⁻¹ • b.integrator.integrate fun x => phi x • (b.value x - st.average)
    own s1 (setCoeff s1 fun k => if k = 0 then st.average else slope)

/-- The candidates of `LiWanAi2020` by their roles: the projections of degree `p, …, 2`, that of degree 1, the
one borrowed first and the one borrowed second. -/
structure LwaCandidates (V : Type*) where
  high : List (Candidate V)
  low : Candidate V
  first : Candidate V
  second : Option (Candidate V)

/-- The Legendre expansion that `get_candidates` starts from, limiter.py:206-211. -/
noncomputable def lwaLegendre (roots : (m : Nat) → Rule m) (s : Setup p) (st : State p V) : Option (Setup p × State p V) :=
  match s.kind with
  | .modal => some (s, st)
  | _ => (modal s.coordinate (roots p)).map fun s' => (s', approximate s' (s.value st))

/-- `LiWanAi2020.get_candidates`, limiter.py:204-219.  Degree 0 and elements without neighbours fail
(limiter.py:227; for degree 0 the first candidate is a borrowed one of degree 1, and the result does not fit
the element). -/
noncomputable def lwaCandidates (roots : (m : Nat) → Rule m) (s : Setup p) (st : State p V) (bs : List (Neighbour p V)) :
    Option (LwaCandidates V) :=
  if h : 1 ≤ p then
    (lwaLegendre roots s st).bind fun l =>
      let high := (List.range (p - 1)).map fun i => truncated (p - i) (Nat.sub_le p i) l.1 l.2
      match bs with
      | [b] => (lwaBorrow roots s st b).map fun c => ⟨high, truncated 1 h l.1 l.2, c, none⟩
      | [b, b'] => (lwaBorrow roots s st b).bind fun c => (lwaBorrow roots s st b').map fun c' =>
          ⟨high, truncated 1 h l.1 l.2, c, some c'⟩
      | _ => none
  else none

end Expansions

section Scalars

/-- Derivative `k` of a candidate, `global_to_derivatives`, expansion.py:223-231, for `1 ≤ k ≤ degree`, the
only orders that the limiters ask for. -/
noncomputable def Candidate.derivative (c : Candidate ℝ) (x : ℝ) (k : Nat) : ℝ :=
  ∑ l ∈ Finset.univ.filter fun l : Fin (c.degree + 1) => k ≤ (l : Nat),
    taylorDerivatives c.integrator.coordinate.xCenter x k l * c.taylor l

/-- `norms[k - 1]` before the scaling, limiter.py:113-119 and 186-192. -/
noncomputable def Candidate.norm (c : Candidate ℝ) (k : Nat) : ℝ :=
  c.integrator.integrate fun x => c.derivative x k ^ 2

/-- `ZhongXingHui2013._get_smoothness_value`, limiter.py:111-125. -/
noncomputable def zxhSmoothness (c : Candidate ℝ) : ℝ :=
  ∑ d ∈ Finset.range c.degree,
    c.norm (d + 1) * (c.integrator.coordinate.length ^ (2 * (d + 1) - 1) / factorials (d + 1) ^ 2)

/-- Coefficient `l` of a candidate, 0 beyond its degree: `new_taylor_coeff[0:len(coeff)] += …` (limiter.py:261)
leaves these entries alone. -/
def Candidate.coef (c : Candidate ℝ) (l : Nat) : ℝ := if h : l < c.degree + 1 then c.taylor ⟨l, h⟩ else 0

/-- The weighted mean of the candidates with the weights divided by their sum, limiter.py:145-150 and
255-262.  There may be fewer weights than candidates. -/
noncomputable def combine (ws : List ℝ) (cs : List (Candidate ℝ)) (l : Nat) : ℝ :=
  (List.zipWith (fun w c => c.coef l * (w / ws.sum)) ws cs).sum

/-- `ZhongXingHui2013.get_scalar_taylor_coeff`, limiter.py:135-150.  All candidates have the degree of the
element. -/
noncomputable def zxhScalar (epsilon wSmall : ℝ) (cs : List (Candidate ℝ)) : Nat → ℝ :=
  let weights := cs.mapIdx fun i c =>
    (if i = 0 then 1 - ((cs.length : ℝ) - 1) * wSmall else wSmall) / (epsilon + zxhSmoothness c) ^ 2
  combine weights cs

/-- `LiWanAi2020._get_derivative_norms`, limiter.py:185-198; entry `k - 1`. -/
noncomputable def lwaNorm (c : Candidate ℝ) (k : Nat) : ℝ :=
  c.norm k * ((c.integrator.coordinate.length / 2) ^ (2 * k - 1) / factorials (k - 1) ^ 2)

/-- `LiWanAi2020._get_smoothness_value`, limiter.py:200-202. -/
noncomputable def lwaSmoothness (c : Candidate ℝ) : ℝ := ∑ d ∈ Finset.range c.degree, lwaNorm c (d + 1)

open scoped Classical in
/-- The loop over the degrees `p, …, 2`, limiter.py:234-241. -/
noncomputable def highWeights (epsilon kTrunc betaMean : ℝ) : List (Candidate ℝ) → List ℝ
  | [] => []
  | c :: cs =>
    let beta := ∑ d ∈ Finset.range (c.degree - 1), lwaNorm c (d + 2)
    let w := (10 : ℝ) ^ (c.degree + 1) / (beta ^ 2 + epsilon)
    if betaMean > kTrunc / ((c.degree : ℝ) - 1) * (beta - lwaNorm c 2) then [w]
    else w :: highWeights epsilon kTrunc betaMean cs

/-- `LiWanAi2020.get_scalar_taylor_coeff`, limiter.py:221-262.  `candidates[-1]` is the second borrowed
candidate, or the first one if there is no second. -/
noncomputable def lwaScalar (epsilon kEpsilon kTrunc : ℝ) (cs : LwaCandidates ℝ) : Nat → ℝ :=
  let betaCurr := lwaSmoothness cs.low
  let betaLeft := lwaSmoothness cs.first
  let betaRight := lwaSmoothness (cs.second.getD cs.first)
  let betaMean := (betaCurr + betaLeft + betaRight) / 3
  let high := highWeights epsilon kTrunc betaMean cs.high
  let epsilon' := epsilon + kEpsilon * (betaLeft ^ 2 + betaRight ^ 2) / 2
  let weights :=
    if high.length = cs.high.length then
      high ++ [10 / (betaCurr ^ 2 + epsilon'), 1 / (betaLeft ^ 2 + epsilon')] ++
        (match cs.second with
         | none => []
         | some _ => [1 / (betaRight ^ 2 + epsilon')])
    else high
  combine weights (cs.high ++ [cs.low, cs.first] ++ cs.second.toList)

end Scalars

section New
variable {p m : Nat}

/-- `get_new_taylor_coeff` of a scalar equation, limiter.py:34-37. -/
noncomputable def zxhNewScalar (epsilon wSmall : ℝ) (s : Setup p) (st : State p ℝ) (bs : List (Neighbour p ℝ)) :
    Option (Fin (p + 1) → ℝ) :=
  some fun l => zxhScalar epsilon wSmall (zxhCandidates s st bs) l

noncomputable def lwaNewScalar (roots : (m : Nat) → Rule m) (epsilon kEpsilon kTrunc : ℝ) (s : Setup p) (st : State p ℝ)
    (bs : List (Neighbour p ℝ)) : Option (Fin (p + 1) → ℝ) :=
  (lwaCandidates roots s st bs).map fun cs l => lwaScalar epsilon kEpsilon kTrunc cs l

/-- A component of a candidate in the coordinates given by the rows of `left`, limiter.py:44-66. -/
def Candidate.component (left : Matrix (Fin m) (Fin m) ℝ) (s : Setup p) (i : Fin m) (c : Candidate (Fin m → ℝ)) :
    Candidate ℝ :=
  ⟨c.degree, fun l => left.mulVec (c.taylor l) i, p, s.integrator⟩

/-- `get_new_taylor_coeff` of a system, limiter.py:38-72: the components of all candidates are limited one by
one. -/
noncomputable def zxhNewSystem (epsilon wSmall : ℝ) (left right : Matrix (Fin m) (Fin m) ℝ) (s : Setup p)
    (st : State p (Fin m → ℝ)) (bs : List (Neighbour p (Fin m → ℝ))) : Option (Fin (p + 1) → Fin m → ℝ) :=
  some fun l => right.mulVec fun i =>
    zxhScalar epsilon wSmall ((zxhCandidates s st bs).map (Candidate.component left s i)) l

noncomputable def lwaNewSystem (roots : (m : Nat) → Rule m) (epsilon kEpsilon kTrunc : ℝ)
    (left right : Matrix (Fin m) (Fin m) ℝ) (s : Setup p) (st : State p (Fin m → ℝ))
    (bs : List (Neighbour p (Fin m → ℝ))) : Option (Fin (p + 1) → Fin m → ℝ) :=
  (lwaCandidates roots s st bs).map fun cs l => right.mulVec fun i =>
    lwaScalar epsilon kEpsilon kTrunc
      ⟨cs.high.map (Candidate.component left s i), Candidate.component left s i cs.low,
        Candidate.component left s i cs.first, cs.second.map (Candidate.component left s i)⟩ l

end New

section Grid
variable {p : Nat} {ι : Type} [DecidableEq ι] {V : Type} [AddCommGroup V] [Module ℝ V]

/-- `CompactWENO.reconstruct`, limiter.py:19-33: all new coefficients are computed before the first one is
set. -/
noncomputable def reconstruct (new : (ι → State p V) → ι → Option (Fin (p + 1) → V)) (setup : ι → Setup p)
    (troubled : List ι) (states : ι → State p V) : Option (ι → State p V) :=
  (troubled.mapM (new states)).map fun coeffs =>
    (troubled.zip coeffs).foldl (fun st ic => Function.update st ic.1 (setTaylor (setup ic.1) ic.2)) states

/-- The neighbours of an element of a grid, given by their indices and shifts. -/
def neighboursOf (setup : ι → Setup p) (states : ι → State p V) (links : List (ι × ℝ)) : List (Neighbour p V) :=
  links.map fun jt => ⟨setup jt.1, states jt.1, jt.2⟩

end Grid

end MiniCFD.PyLimiter
