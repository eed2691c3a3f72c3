import Mathlib.Analysis.Real.Sqrt
import Mathlib.LinearAlgebra.Matrix.NonsingularInverse

/-
Model of /repo/include/mini/riemann/euler/types.hpp, hllc.hpp, ausm.hpp and of
/repo/include/mini/riemann/rotated/euler.hpp.

Scalars are reals. The number of space dimensions is `d + 1` for an arbitrary `d`; the code has
separate specialisations for 1, 2 and 3 dimensions (HLLC for 1 and 2), each of which is the
instance `d = 0, 1, 2` of the definitions below. Component 0 of a momentum is `momentumX()`.
-/
namespace MiniCFD.Euler

/-- `Tuple` (types.hpp:17-67): used for conservative and primitive variables and for fluxes. -/
@[ext] structure Tup (d : Nat) where
  mass : ℝ
  mom : Fin (d + 1) → ℝ
  energy : ℝ

/-- Componentwise operations inherited from `algebra::Vector` (types.hpp:18). -/
def Tup.zero {d : Nat} : Tup d := ⟨0, 0, 0⟩
def Tup.add {d : Nat} (s t : Tup d) : Tup d := ⟨s.mass + t.mass, s.mom + t.mom, s.energy + t.energy⟩
def Tup.sub {d : Nat} (s t : Tup d) : Tup d := ⟨s.mass - t.mass, s.mom - t.mom, s.energy - t.energy⟩
def Tup.scale {d : Nat} (c : ℝ) (s : Tup d) : Tup d := ⟨c * s.mass, c • s.mom, c * s.energy⟩

/-- `Primitives::GetDynamicPressure` (types.hpp:169-174). -/
noncomputable def dynamicPressure {d : Nat} (s : Tup d) : ℝ :=
  s.mass * ((∑ i, s.mom i * s.mom i) * (1 / 2))

/-- `IdealGas::SetZeroIfNegative` (types.hpp:197-204). -/
noncomputable def setZeroIfNegative {d : Nat} (s : Tup d) : Tup d :=
  let s := if s.mass < 0 then Tup.zero else s
  if s.energy < 0 then Tup.zero else s

/-- `IdealGas::GetSpeedOfSound` (types.hpp:240-244). -/
noncomputable def speedOfSound {d : Nat} (γ : ℝ) (s : Tup d) : ℝ :=
  if s.mass ≤ 0 ∨ s.energy ≤ 0 then 0 else Real.sqrt (γ * s.energy / s.mass)

/-- `IdealGas::ConservativeToPrimitive` (types.hpp:246-258), with `Converter::MomentumToVelocity`
(types.hpp:73-109). -/
noncomputable def toPrim {d : Nat} (γ : ℝ) (c : Tup d) : Tup d :=
  let s := setZeroIfNegative c
  if s.mass ≠ 0 then
    let s := { s with mom := fun i => s.mom i / s.mass }
    let s := { s with energy := s.energy - dynamicPressure s }
    let s := { s with energy := s.energy * (γ - 1) }
    setZeroIfNegative s
  else s

/-- `IdealGas::PrimitiveToConservative` (types.hpp:260-268). -/
noncomputable def toCons {d : Nat} (γ : ℝ) (s : Tup d) : Tup d :=
  ⟨s.mass, fun i => s.mom i * s.mass, s.energy * (1 / (γ - 1)) + dynamicPressure s⟩

/-- `IdealGas::PrimitiveToFlux` (types.hpp:270-278): flux through a face normal to axis 0. -/
noncomputable def primFlux {d : Nat} (γ : ℝ) (s : Tup d) : Tup d :=
  let c := Tup.scale (s.mom 0) (toCons γ s)
  ⟨c.mass, fun i => if i = 0 then c.mom i + s.energy else c.mom i,
    c.energy + s.energy * s.mom 0⟩

/-- `IdealGas::GetFluxMatrix` (types.hpp:279-290), column `c`. -/
noncomputable def fluxMatrix {d : Nat} (γ : ℝ) (cv : Tup d) (c : Fin (d + 1)) : Tup d :=
  let pv := toPrim γ cv
  ⟨cv.mom c, fun i => if i = c then cv.mom i * pv.mom c + pv.energy else cv.mom i * pv.mom c,
    (cv.energy + pv.energy) * pv.mom c⟩

/-! ### hllc.hpp -/

/-- `GetQ` (hllc.hpp:72-80 and 154-162). -/
noncomputable def getQ (γ pEst pk : ℝ) : ℝ :=
  if pEst ≤ pk then 1
  else Real.sqrt (1 + (γ + 1) / 2 * (pEst / pk - 1) / γ)

/-- `p_estimate` in `Initialize` (hllc.hpp:56-63 and 138-145). -/
noncomputable def pEstimate {d : Nat} (γ : ℝ) (l r : Tup d) : ℝ :=
  let rhoAverage := (l.mass + r.mass) / 2
  let aAverage := (speedOfSound γ l + speedOfSound γ r) / 2
  let pPvrs := (l.energy + r.energy - (r.mom 0 - l.mom 0) * rhoAverage * aAverage) / 2
  max 0 pPvrs

/-- `wave_left_` (hllc.hpp:64 and 146). -/
noncomputable def waveLeft {d : Nat} (γ : ℝ) (l r : Tup d) : ℝ :=
  l.mom 0 - speedOfSound γ l * getQ γ (pEstimate γ l r) l.energy

/-- `wave_right_` (hllc.hpp:65 and 147). -/
noncomputable def waveRight {d : Nat} (γ : ℝ) (l r : Tup d) : ℝ :=
  r.mom 0 + speedOfSound γ r * getQ γ (pEstimate γ l r) r.energy

/-- `wave_star_` (hllc.hpp:66-70 and 148-152). -/
noncomputable def waveStar {d : Nat} (l r : Tup d) (sl sr : ℝ) : ℝ :=
  (r.energy - l.energy + l.mass * l.mom 0 * (sl - l.mom 0) - r.mass * r.mom 0 * (sr - r.mom 0)) /
    (l.mass * (sl - l.mom 0) - r.mass * (sr - r.mom 0))

/-- `GetStarFlux` (hllc.hpp:81-98 and 163-183); `wk` is `wave_k`, `ws` is `wave_star_`. -/
noncomputable def starFlux {d : Nat} (γ : ℝ) (s : Tup d) (wk ws : ℝ) : Tup d :=
  let energy := s.energy / (γ - 1) + s.mass * (∑ i, s.mom i * s.mom i) * (1 / 2)
  let temp := s.mass * (wk - s.mom 0) / (wk - ws)
  let uStar : Tup d :=
    ⟨temp, fun i => if i = 0 then ws * temp else s.mom i * temp,
     (energy / s.mass + (ws - s.mom 0) * (ws + s.energy / (s.mass * (wk - s.mom 0)))) * temp⟩
  Tup.add (primFlux γ s) (Tup.scale wk (Tup.sub uStar (toCons γ s)))

/-- `Hllc::GetFluxUpwind` (hllc.hpp:33-46 and 114-127). The last `else if (wave_star_ < 0.0)` is
the only remaining case over the reals. -/
noncomputable def hllc {d : Nat} (γ : ℝ) (l r : Tup d) : Tup d :=
  let sl := waveLeft γ l r
  let sr := waveRight γ l r
  let ss := waveStar l r sl sr
  if 0 ≤ sl then primFlux γ l
  else if sr ≤ 0 then primFlux γ r
  else if 0 ≤ ss then starFlux γ l sl ss
  else starFlux γ r sr ss

/-! ### ausm.hpp -/

/-- `h` (ausm.hpp:50, 115-116, 183-184). -/
noncomputable def ausmH {d : Nat} (γ : ℝ) (s : Tup d) : ℝ :=
  speedOfSound γ s * speedOfSound γ s / (γ - 1) + (∑ i, s.mom i * s.mom i) * (1 / 2)

/-- `GetPositiveFlux` (ausm.hpp:45-63, 110-129, 178-197). -/
noncomputable def ausmPositive {d : Nat} (γ : ℝ) (s : Tup d) : Tup d :=
  let a := speedOfSound γ s
  let mach := s.mom 0 / a
  let machP :=
    if mach ≥ -1 ∧ mach ≤ 1 then (mach + 1) * (mach + 1) * (1 / 4)
    else if mach < -1 then 0 else mach
  let pP :=
    if mach ≥ -1 ∧ mach ≤ 1 then s.energy * (mach + 1) * (1 / 2)
    else if mach < -1 then 0 else s.energy
  let temp := s.mass * a * machP
  ⟨temp * 1, fun i => if i = 0 then temp * s.mom i + pP else temp * s.mom i, temp * ausmH γ s⟩

/-- `GetNegativeFlux` (ausm.hpp:64-81, 130-149, 198-217). -/
noncomputable def ausmNegative {d : Nat} (γ : ℝ) (s : Tup d) : Tup d :=
  let a := speedOfSound γ s
  let mach := s.mom 0 / a
  let machN :=
    if mach ≥ -1 ∧ mach ≤ 1 then -(mach - 1) * (mach - 1) * (1 / 4)
    else if mach > 1 then 0 else mach
  let pN :=
    if mach ≥ -1 ∧ mach ≤ 1 then -s.energy * (mach - 1) * (1 / 2)
    else if mach > 1 then 0 else s.energy
  let temp := s.mass * a * machN
  ⟨temp * 1, fun i => if i = 0 then temp * s.mom i + pN else temp * s.mom i, temp * ausmH γ s⟩

/-- `Ausm::GetFluxUpwind` (ausm.hpp:33-38, 98-103, 166-171). -/
noncomputable def ausm {d : Nat} (γ : ℝ) (l r : Tup d) : Tup d :=
  Tup.add (ausmPositive γ l) (ausmNegative γ r)

/-! ### rotated/euler.hpp -/

/-- `Frame` (rotated/euler.hpp:31): row `i` is the axis `i`, row 0 the face normal. -/
abbrev Frame (d : Nat) := Matrix (Fin (d + 1)) (Fin (d + 1)) ℝ

/-- `GlobalToNormal` (rotated/euler.hpp:66-72, 80-88). -/
def globalToNormal {d : Nat} (F : Frame d) (s : Tup d) : Tup d :=
  { s with mom := fun i => ∑ j, s.mom j * F i j }

/-- `NormalToGlobal` (rotated/euler.hpp:73-79, 89-97). -/
def normalToGlobal {d : Nat} (F : Frame d) (s : Tup d) : Tup d :=
  { s with mom := fun j => ∑ i, s.mom i * F i j }

/-- `momentum().dot(normal())`. -/
def normalVelocity {d : Nat} (F : Frame d) (s : Tup d) : ℝ := ∑ j, s.mom j * F 0 j

/-- Rotated `GetFluxUpwind` (rotated/euler.hpp:111-121) over a given unrotated solver. -/
noncomputable def upwind {d : Nat} (γ : ℝ) (solver : Tup d → Tup d → Tup d) (F : Frame d)
    (left right : Tup d) : Tup d :=
  normalToGlobal F
    (solver (globalToNormal F (toPrim γ left)) (globalToNormal F (toPrim γ right)))

/-- The common tail of the boundary fluxes: flux of a primitive state given in global axes. -/
noncomputable def fluxOfPrim {d : Nat} (γ : ℝ) (F : Frame d) (s : Tup d) : Tup d :=
  normalToGlobal F (primFlux γ (globalToNormal F s))

/-- `GetFluxOnSupersonicInlet` (rotated/euler.hpp:104-110). -/
noncomputable def supersonicInlet {d : Nat} (γ : ℝ) (F : Frame d) (c : Tup d) : Tup d :=
  fluxOfPrim γ F (toPrim γ c)

/-- `GetFluxOnSupersonicOutlet` (rotated/euler.hpp:129-135). -/
noncomputable def supersonicOutlet {d : Nat} (γ : ℝ) (F : Frame d) (c : Tup d) : Tup d :=
  fluxOfPrim γ F (toPrim γ c)

/-- `GetFluxOnSolidWall` (rotated/euler.hpp:122-128). -/
noncomputable def solidWall {d : Nat} (γ : ℝ) (F : Frame d) (c : Tup d) : Tup d :=
  let p := (toPrim γ c).energy
  normalToGlobal F ⟨0, fun i => if i = 0 then p else 0, 0⟩

/-- `primitive_b` of `GetFluxOnSubsonicInlet` (rotated/euler.hpp:136-150). -/
noncomputable def inletState {d : Nat} (γ : ℝ) (F : Frame d) (ci co : Tup d) : Tup d :=
  let pi := toPrim γ ci
  let po := toPrim γ co
  let uO := normalVelocity F po
  let uI := normalVelocity F pi
  let aI := speedOfSound γ pi
  let rhoA := pi.mass * (if uO > 0 then aI else -aI)
  let pB := (pi.energy + po.energy + rhoA * (uO - uI)) * (1 / 2)
  let pJump := po.energy - pB
  ⟨po.mass - pJump / (aI * aI), fun j => po.mom j + pJump / rhoA * F 0 j, pB⟩

/-- `GetFluxOnSubsonicInlet` (rotated/euler.hpp:136-155). -/
noncomputable def subsonicInlet {d : Nat} (γ : ℝ) (F : Frame d) (ci co : Tup d) : Tup d :=
  fluxOfPrim γ F (inletState γ F ci co)

/-- `primitive_b` of `GetFluxOnSubsonicOutlet` (rotated/euler.hpp:156-167). -/
noncomputable def outletState {d : Nat} (γ : ℝ) (F : Frame d) (ci co : Tup d) : Tup d :=
  let pi := toPrim γ ci
  let po := toPrim γ co
  let pB := po.energy
  let pJump := pi.energy - pB
  let aI := speedOfSound γ pi
  let uI := normalVelocity F pi
  let rhoA := pi.mass * (if uI > 0 then aI else -aI)
  ⟨pi.mass - pJump / (aI * aI), fun j => pi.mom j + pJump / rhoA * F 0 j, pB⟩

/-- `GetFluxOnSubsonicOutlet` (rotated/euler.hpp:156-172). -/
noncomputable def subsonicOutlet {d : Nat} (γ : ℝ) (F : Frame d) (ci co : Tup d) : Tup d :=
  fluxOfPrim γ F (outletState γ F ci co)

/-- `GetFluxOnSmartBoundary` (rotated/euler.hpp:173-193). -/
noncomputable def smartBoundary {d : Nat} (γ : ℝ) (F : Frame d) (ci co : Tup d) : Tup d :=
  let s := toPrim γ ci
  let a := speedOfSound γ s
  let un := normalVelocity F s
  if un < 0 then
    if un + a < 0 then supersonicInlet γ F co else subsonicInlet γ F ci co
  else
    if un - a > 0 then supersonicOutlet γ F ci else subsonicOutlet γ F ci co

end MiniCFD.Euler
