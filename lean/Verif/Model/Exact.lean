import Verif.Model.Euler
import Mathlib.Analysis.SpecialFunctions.Pow.Real

/-
Model of /repo/include/mini/riemann/euler/exact.hpp. Scalars are reals, `std::pow` is `Real.rpow`.
-/
namespace MiniCFD.Exact
open MiniCFD.Euler

/-- The part of `Primitive` the one-dimensional solver works with: `rho()`, `u()`, `p()`. The
remaining velocity components of its results are overwritten by `PassiveScalars::Set`. -/
@[ext] structure P3 where
  rho : ℝ
  u : ℝ
  p : ℝ

def P3.zero : P3 := ⟨0, 0, 0⟩

def P3.of {d : Nat} (s : Tup d) : P3 := ⟨s.mass, s.mom 0, s.energy⟩

/-- `Gas::GetSpeedOfSound` (types.hpp:240-244). -/
noncomputable def sound3 (γ : ℝ) (s : P3) : ℝ :=
  if s.rho ≤ 0 ∨ s.p ≤ 0 then 0 else Real.sqrt (γ * s.p / s.rho)

/-- `SpeedChange::P` (exact.hpp:216-218) with `p_const_` (exact.hpp:180). -/
noncomputable def bigP (γ : ℝ) (before : P3) (p : ℝ) : ℝ :=
  (γ + 1) / 2 * p + before.p * ((γ - 1) / 2)

/-- `SpeedChange::operator()` (exact.hpp:183-196) with the constructor (exact.hpp:177-182). The
asserted conditions are not checked here. -/
noncomputable def speedChange (γ : ℝ) (before : P3) (p : ℝ) : ℝ :=
  let a := if before.rho = 0 then 0 else sound3 γ before
  if p ≥ before.p then (p - before.p) / Real.sqrt (before.rho * bigP γ before p)
  else ((p / before.p) ^ ((γ - 1) / 2 / γ) - 1) * (2 / (γ - 1) * a)

/-- `SpeedChange::Prime` (exact.hpp:197-213). -/
noncomputable def speedChangePrime (γ : ℝ) (before : P3) (p : ℝ) : ℝ :=
  let a := if before.rho = 0 then 0 else sound3 γ before
  if p ≥ before.p then
    (1 + (γ + 1) / 4 * (before.p - p) / bigP γ before p) /
      Real.sqrt (before.rho * bigP γ before p)
  else (p / before.p) ^ (-((γ + 1) / 2) / γ) / (before.rho * a)

/-- The pressure function `f` (exact.hpp:128-133). -/
noncomputable def pressureFn (γ : ℝ) (l r : P3) (p : ℝ) : ℝ :=
  speedChange γ l p + speedChange γ r p + (r.u - l.u)

/-- `f_prime` (exact.hpp:134-136). -/
noncomputable def pressureFnPrime (γ : ℝ) (l r : P3) (p : ℝ) : ℝ :=
  speedChangePrime γ l p + speedChangePrime γ r p

/-- First loop of `FindRoot` (exact.hpp:164-166), at most `fuel` rounds; `none` if it needs more. -/
noncomputable def halve (f : ℝ → ℝ) : Nat → ℝ → Option ℝ
  | 0, x => if f x > 0 then none else some x
  | n + 1, x => if f x > 0 then halve f n (x * (1 / 2)) else some x

/-- Second loop of `FindRoot` (exact.hpp:167-171), at most `fuel` rounds. -/
noncomputable def newton (f f' : ℝ → ℝ) (eps : ℝ) : Nat → ℝ → Option ℝ
  | 0, x => if f x < -eps then none else some x
  | n + 1, x => if f x < -eps then newton f f' eps n (x - f x / f' x) else some x

/-- `FindRoot` (exact.hpp:162-174). -/
noncomputable def findRoot (fuel : Nat) (f f' : ℝ → ℝ) (x eps : ℝ) : Option ℝ :=
  (halve f fuel x).bind (newton f f' eps fuel)

/-- `star.p()` (exact.hpp:139) with the default tolerance (exact.hpp:163). -/
noncomputable def starPressure (fuel : Nat) (γ : ℝ) (l r : P3) : Option ℝ :=
  findRoot fuel (pressureFn γ l r) (pressureFnPrime γ l r) l.p (1 / 100000000)

/-- `Shock::u` (exact.hpp:228-232). -/
noncomputable def shockSpeed (before after : P3) : ℝ :=
  let divisor := (after.u - before.u) * before.rho
  before.u + (if divisor ≠ 0 then (after.p - before.p) / divisor else before.u)

/-- Density after a shock, `PrimitiveNearShock` (exact.hpp:248-251). -/
noncomputable def shockDensity (before after : P3) : ℝ :=
  before.rho * ((before.u - shockSpeed before after) / (after.u - shockSpeed before after))

/-- `PrimitiveNearShock<1>` (exact.hpp:242-256). -/
noncomputable def nearShock1 (before after : P3) : P3 :=
  if shockSpeed before after < 0 then { after with rho := shockDensity before after } else before

/-- `PrimitiveNearShock<3>` (exact.hpp:242-256). -/
noncomputable def nearShock3 (before after : P3) : P3 :=
  if shockSpeed before after > 0 then { after with rho := shockDensity before after } else before

/-- `PrimitiveInsideExpansion` (exact.hpp:277-288). -/
noncomputable def insideExpansion (γ gri1 gri2 : ℝ) : P3 :=
  let a := (γ - 1) / (γ + 1) * gri2
  let a2 := a * a
  let rho := (a2 / gri1 * (1 / γ)) ^ (1 / (γ - 1))
  ⟨rho, a, a2 * rho * (1 / γ)⟩

/-- `PrimitiveNearExpansion<1>` (exact.hpp:299-314) with `Expansion<1>` (exact.hpp:258-276). -/
noncomputable def nearExpansion1 (γ : ℝ) (before after : P3) : P3 :=
  let aBefore := sound3 γ before
  let gri1 := before.p / before.rho ^ γ
  let gri2 := before.u + 2 / (γ - 1) * aBefore
  let aAfter := aBefore + (γ - 1) / 2 * (before.u - after.u)
  if after.u - aAfter < 0 then { after with rho := γ * after.p / (aAfter * aAfter) }
  else if before.u - aBefore > 0 then before
  else insideExpansion γ gri1 gri2

/-- `PrimitiveNearExpansion<3>` (exact.hpp:299-314) with `Expansion<3>` (exact.hpp:258-276). -/
noncomputable def nearExpansion3 (γ : ℝ) (before after : P3) : P3 :=
  let aBefore := sound3 γ before
  let gri1 := before.p / before.rho ^ γ
  let gri2 := before.u - 2 / (γ - 1) * aBefore
  let aAfter := aBefore - (γ - 1) / 2 * (before.u - after.u)
  if after.u + aAfter > 0 then { after with rho := γ * after.p / (aAfter * aAfter) }
  else if before.u + aBefore < 0 then before
  else insideExpansion γ gri1 gri2

/-- `PrimitiveNearVacuum` (exact.hpp:315-342). -/
noncomputable def nearVacuum (γ : ℝ) (l r : P3) : P3 :=
  if l.u > sound3 γ l then l
  else if r.u + sound3 γ r < 0 then r
  else
    let gri2 := l.u + sound3 γ l * (2 / (γ - 1))
    if gri2 ≥ 0 then insideExpansion γ (l.p / l.rho ^ γ) gri2
    else
      let gri2 := r.u - sound3 γ r * (2 / (γ - 1))
      if gri2 < 0 then insideExpansion γ (r.p / r.rho ^ γ) gri2
      else P3.zero

/-- The state behind the contact for a given star pressure (exact.hpp:138-155). -/
noncomputable def ordinary (γ : ℝ) (l r : P3) (pStar : ℝ) : P3 × ℝ :=
  let uStar := 1 / 2 * (r.u + speedChange γ r pStar + l.u - speedChange γ l pStar)
  let star : P3 := ⟨0, uStar, pStar⟩
  (if 0 < uStar then
      if pStar ≥ l.p then nearShock1 l star else nearExpansion1 γ l star
    else
      if pStar ≥ r.p then nearShock3 r star else nearExpansion3 γ r star,
   uStar)

/-- The private, mutating `GetPrimitiveUpwind` (exact.hpp:84-160). The second component is the new
value of the member `star_u`, if it is assigned. `none`: a loop did not finish within `fuel`. -/
noncomputable def axis (fuel : Nat) (γ : ℝ) (l r : P3) : Option (P3 × Option ℝ) :=
  if l.rho > 0 then
    if r.rho > 0 then
      if pressureFn γ l r 0 < 0 then
        (starPressure fuel γ l r).map fun p =>
          let o := ordinary γ l r p
          (o.1, some o.2)
      else some (nearVacuum γ l r, none)
    else
      some (
        if l.u ≥ sound3 γ l then l
        else
          let uStar := l.u + sound3 γ l * (2 / (γ - 1))
          if uStar ≤ 0 then P3.zero else insideExpansion γ (l.p / l.rho ^ γ) uStar, none)
  else
    if r.rho > 0 then
      some (
        if r.u + sound3 γ r ≤ 0 then r
        else
          let uStar := r.u - sound3 γ r * (2 / (γ - 1))
          if uStar ≥ 0 then P3.zero else insideExpansion γ (r.p / r.rho ^ γ) uStar, none)
    else some (P3.zero, none)

/-- `PassiveScalars::Set` (exact.hpp:15-46). -/
noncomputable def setPassive {d : Nat} (s : P3) (starU : ℝ) (l r : Tup d) : Tup d :=
  ⟨s.rho, fun i => if i = 0 then s.u else if starU > 0 then l.mom i else r.mom i, s.p⟩

/-- The public `GetFluxUpwind` (exact.hpp:69-80): `starU` is the member before the call; result is
the flux and the member after the call. -/
noncomputable def call {d : Nat} (fuel : Nat) (γ : ℝ) (starU : ℝ) (l r : Tup d) :
    Option (Tup d × ℝ) :=
  (axis fuel γ (P3.of l) (P3.of r)).map fun res =>
    let starU' := res.2.getD starU
    (primFlux γ (setPassive res.1 starU' l r), starU')

/-- Rotated `GetFluxUpwind` (rotated/euler.hpp:111-121) over the exact solver. -/
noncomputable def rotatedCall {d : Nat} (fuel : Nat) (γ : ℝ) (F : Frame d) (starU : ℝ)
    (left right : Tup d) : Option (Tup d × ℝ) :=
  (call fuel γ starU (globalToNormal F (toPrim γ left)) (globalToNormal F (toPrim γ right))).map
    fun o => (normalToGlobal F o.1, o.2)

/-- A sequence of calls on one object, starting from its construction (`star_u{0.0}`,
exact.hpp:62); the value of `star_u` afterwards. -/
noncomputable def history {d : Nat} (fuel : Nat) (γ : ℝ) : List (Tup d × Tup d) → Option ℝ
  | [] => some 0
  | q :: qs => (history fuel γ qs).bind fun s => (call fuel γ s q.1 q.2).map (·.2)

end MiniCFD.Exact
