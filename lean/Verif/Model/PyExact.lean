import Verif.Model.PyEuler
import Mathlib.Analysis.SpecialFunctions.Pow.Real

/-!
# Model of the exact Riemann solver of the Python code

Covers `riemann.Solver.set_initial`, `get_value`, `get_upwind_flux` (python/riemann.py:21-52) and
`riemann.Euler` (python/riemann.py:200-385).  Rounding is not modelled.  `none` stands for a failed
assertion, for `nan`, or for a loop that needs more than `fuel` rounds.  `scipy.optimize.fsolve` is a
parameter: it gets the function, its derivative and a start value and returns a number or fails.
-/

namespace MiniCFD.PyExact
open MiniCFD.PyEuler

/-- `Ideal.p_rho_to_a`, gas.py:33-42, for a density other than zero. -/
noncomputable def soundOf (γ p rho : ℝ) : ℝ := √(p / rho * γ)

/-- `Euler._P`, riemann.py:338-340. -/
noncomputable def bigP (γ p1 p2 : ℝ) : ℝ := (p1 * (γ - 1) + p2 * (γ + 1)) / 2

open scoped Classical in
/-- `Euler._f`, riemann.py:308-320; the assertion `p_2 / p_1 >= 0` is not checked. -/
noncomputable def f (γ p2 p1 rho1 : ℝ) : ℝ :=
  if p2 > p1 then (p2 - p1) / √(rho1 * bigP γ p1 p2)
  else if p2 < p1 then
    let power := (γ - 1) / γ / 2
    let y := (p2 / p1) ^ power - 1
    let y := y * (2 * soundOf γ p1 rho1)
    y / (γ - 1)
  else 0

open scoped Classical in
/-- `Euler._f_prime`, riemann.py:322-336. -/
noncomputable def fPrime (γ p2 p1 rho1 : ℝ) : ℝ :=
  if p2 > p1 then
    let P := bigP γ p1 p2
    (1 - (p2 - p1) / P / 4 * (γ + 1)) / √(rho1 * P)
  else
    let df := 1 / √(rho1 * p1 * γ)
    if p2 < p1 then
      let power := (γ + 1) / γ / 2
      df * (p1 / p2) ^ power
    else df

/-- `func`, riemann.py:239-241. -/
noncomputable def func (γ : ℝ) (l r : Prim) (p : ℝ) : ℝ :=
  f γ p l.p l.rho + f γ p r.p r.rho + (r.u - l.u)

/-- `fprime`, riemann.py:245-246. -/
noncomputable def funcPrime (γ : ℝ) (l r : Prim) (p : ℝ) : ℝ :=
  fPrime γ p l.p l.rho + fPrime γ p r.p r.rho

open scoped Classical in
/-- `Euler._guess`, riemann.py:342-345. -/
noncomputable def guess (g : ℝ → ℝ) : Nat → ℝ → Option ℝ
  | 0, p => if g p > 0 then none else some p
  | n + 1, p => if g p > 0 then guess g n (p * (1 / 2)) else some p

open scoped Classical in
/-- The choice of `p_2`, riemann.py:242-250. -/
noncomputable def pressure (γ : ℝ) (fuel : Nat) (fsolve : (ℝ → ℝ) → (ℝ → ℝ) → ℝ → Option ℝ)
    (l r : Prim) : Option ℝ :=
  (guess (func γ l r) fuel l.p).bind fun p =>
    if |func γ l r p| > 1 / 10 ^ 8 then fsolve (func γ l r) (funcPrime γ l r) p else some p

open scoped Classical in
/-- `Euler._shock`, riemann.py:347-353: density behind, left and right end of the wave. -/
noncomputable def shock (u2 p2 u1 p1 rho1 : ℝ) : Option (ℝ × ℝ × ℝ) :=
  if u2 = u1 then none
  else
    let slope := u1 + (p2 - p1) / (u2 - u1) / rho1
    if u2 = slope then none
    else some (rho1 * (u1 - slope) / (u2 - slope), slope, slope)

open scoped Classical in
/-- The 1-field, riemann.py:256-275: `rho_2`, `slope_left`, `slope_right`; `none` also for `a_2 = 0`
(a division by zero). -/
noncomputable def wave1 (γ : ℝ) (l : Prim) (u2 p2 : ℝ) : Option (ℝ × ℝ × ℝ) :=
  let eps := 1 / 10 ^ 10
  if p2 > l.p + eps then shock u2 p2 l.u l.p l.rho
  else if p2 < l.p - eps then
    let aL := soundOf γ l.p l.rho
    let a2 := aL + (l.u - u2) / 2 * (γ - 1)
    if 0 < a2 then some (p2 / a2 ^ 2 * γ, l.u - aL, u2 - a2) else none
  else some (l.rho, l.u, l.u)

open scoped Classical in
/-- The 3-field, riemann.py:276-294. -/
noncomputable def wave3 (γ : ℝ) (r : Prim) (u2 p2 : ℝ) : Option (ℝ × ℝ × ℝ) :=
  let eps := 1 / 10 ^ 8
  if p2 > r.p + eps then shock u2 p2 r.u r.p r.rho
  else if p2 < r.p - eps then
    let aR := soundOf γ r.p r.rho
    let a2 := aR - (r.u - u2) / 2 * (γ - 1)
    if 0 < a2 then some (p2 / a2 ^ 2 * γ, u2 + a2, r.u + aR) else none
  else some (r.rho, r.u, r.u)

/-- `_p_2`, `_u_2`, `_rho_2_left`, `_rho_2_right`. -/
structure Mid where
  p : ℝ
  u : ℝ
  rhoL : ℝ
  rhoR : ℝ

/-- The attributes set by `_determine_wave_structure`; `mid` is `none` when they are `nan`. -/
structure Waves where
  l : Prim
  r : Prim
  invL : ℝ × ℝ
  invR : ℝ × ℝ
  mid : Option Mid
  s1l : ℝ
  s1r : ℝ
  s2 : ℝ
  s3l : ℝ
  s3r : ℝ

/-- `_riemann_invariants_left`, riemann.py:221-223. -/
noncomputable def invLeft (γ : ℝ) (l : Prim) : ℝ × ℝ :=
  (l.p / l.rho ^ γ, l.u + 2 * soundOf γ l.p l.rho / (γ - 1))

/-- `_riemann_invariants_right`, riemann.py:224-226. -/
noncomputable def invRight (γ : ℝ) (r : Prim) : ℝ × ℝ :=
  (r.p / r.rho ^ γ, r.u - 2 * soundOf γ r.p r.rho / (γ - 1))

open scoped Classical in
/-- `Euler._determine_wave_structure`, riemann.py:209-294, on primitive variables.  Densities are not
zero here, since the pressures are not (conservative_to_primitive). -/
noncomputable def structureOf (γ : ℝ) (fuel : Nat)
    (fsolve : (ℝ → ℝ) → (ℝ → ℝ) → ℝ → Option ℝ) (l r : Prim) : Option Waves :=
  if l.p * r.p = 0 then none
  else
    let invL := invLeft γ l
    let invR := invRight γ r
    if invL.2 ≤ invR.2 then
      let s1l := l.u - soundOf γ l.p l.rho
      let s3r := r.u + soundOf γ r.p r.rho
      let s1r := invL.2
      let s3l := invR.2
      let s2 := (s1r + s3l) / 2
      if s1l < s1r ∧ s1r ≤ s2 ∧ s2 ≤ s3l ∧ s3l < s3r then
        some ⟨l, r, invL, invR, none, s1l, s1r, s2, s3l, s3r⟩
      else none
    else
      (pressure γ fuel fsolve l r).bind fun p2 =>
        let u2 := (l.u - f γ p2 l.p l.rho + r.u + f γ p2 r.p r.rho) / 2
        (wave1 γ l u2 p2).bind fun w1 => (wave3 γ r u2 p2).map fun w3 =>
          ⟨l, r, invL, invR, some ⟨p2, u2, w1.1, w3.1⟩, w1.2.1, w1.2.2, u2, w3.2.1, w3.2.2⟩

/-- `Solver.set_initial`, riemann.py:21-24. -/
noncomputable def setInitial (γ : ℝ) (fuel : Nat)
    (fsolve : (ℝ → ℝ) → (ℝ → ℝ) → ℝ → Option ℝ) (left right : Vec) : Option Waves :=
  (toPrim γ left).bind fun l => (toPrim γ right).bind fun r => structureOf γ fuel fsolve l r

/-- Density and pressure inside a fan, riemann.py:368-370 and 382-384. -/
noncomputable def fan (γ inv0 a u : ℝ) : Prim :=
  let rho := (a ^ 2 / γ / inv0) ^ (1 / (γ - 1))
  ⟨rho, u, a ^ 2 * rho / γ⟩

open scoped Classical in
/-- `Euler._get_value`, riemann.py:355-385, before the conversion. -/
noncomputable def value (γ : ℝ) (w : Waves) (slope : ℝ) : Option Prim :=
  if slope < w.s2 then
    if slope ≤ w.s1l then some w.l
    else if slope > w.s1r then w.mid.map fun m => ⟨m.rhoL, m.u, m.p⟩
    else
      let a := (w.invL.2 - slope) * ((γ - 1) / (γ + 1))
      if 0 ≤ a then some (fan γ w.invL.1 a (slope + a)) else none
  else
    if slope ≥ w.s3r then some w.r
    else if slope ≤ w.s3l then w.mid.map fun m => ⟨m.rhoR, m.u, m.p⟩
    else
      let a := (slope - w.invR.2) * ((γ - 1) / (γ + 1))
      if 0 ≤ a then some (fan γ w.invR.1 a (slope - a)) else none

open scoped Classical in
/-- `Solver.get_value`, riemann.py:32-39, after `set_initial(left, right)`. -/
noncomputable def getValue (γ : ℝ) (left right : Vec) (w : Waves) (x t : ℝ) : Option Vec :=
  if t = 0 then
    if x ≤ 0 then some left else some right
  else (value γ w (x / t)).map (toCons γ)

/-- `Solver.get_upwind_flux`, riemann.py:46-52. -/
noncomputable def upwindFlux (γ : ℝ) (fuel : Nat)
    (fsolve : (ℝ → ℝ) → (ℝ → ℝ) → ℝ → Option ℝ) (left right : Vec) : Option Vec :=
  (setInitial γ fuel fsolve left right).bind fun w =>
    (getValue γ left right w 0 1).bind (flux γ)

end MiniCFD.PyExact
