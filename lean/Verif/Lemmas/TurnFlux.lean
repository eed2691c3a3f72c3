import Verif.Spec.Turn
import Verif.Lemmas.Euler
import Verif.Lemmas.ExactWaves

/-! Fluxes of turned states. -/

namespace MiniCFD.Turn

open MiniCFD.Spec.Turn MiniCFD.Euler MiniCFD.Spec.Euler

variable {d : Nat} {Q F F' : Frame d}

theorem turn_zero (Q : Frame d) : turn Q Tup.zero = Tup.zero := by
  unfold turn Tup.zero
  simp
  rfl

theorem dot_turn (h : Orthonormal Q) (v w : Fin (d + 1) → ℝ) :
    ∑ j, (∑ k, Q j k * v k) * (∑ k, Q j k * w k) = ∑ k, v k * w k := by
  have e : ∀ j, (∑ k, Q j k * v k) * (∑ k, Q j k * w k) = ∑ l, ((∑ k, v k * Q j k) * Q j l) * w l := by
    intro j
    rw [Finset.mul_sum]
    refine Finset.sum_congr rfl fun l _ => ?_
    have : ∑ k, Q j k * v k = ∑ k, v k * Q j k := Finset.sum_congr rfl fun k _ => mul_comm _ _
    rw [this]
    ring
  simp only [e]
  rw [Finset.sum_comm]
  refine Finset.sum_congr rfl fun l _ => ?_
  rw [← Finset.sum_mul, back_mom h]

theorem zeroIf_turn (Q : Frame d) (s : Tup d) : setZeroIfNegative (turn Q s) = turn Q (setZeroIfNegative s) := by
  unfold setZeroIfNegative
  have e1 : (turn Q s).mass = s.mass := rfl
  by_cases h : s.mass < 0
  · simp [e1, h, Tup.zero, turn_zero, turn]
    rfl
  · simp only [e1, if_neg h]
    have e2 : (turn Q s).energy = s.energy := rfl
    by_cases h' : s.energy < 0
    · simp only [e2, if_pos h', turn_zero]
    · simp only [e2, if_neg h']

theorem toPrim_turn (h : Orthonormal Q) (γ : ℝ) (c : Tup d) : toPrim γ (turn Q c) = turn Q (toPrim γ c) := by
  unfold toPrim
  rw [zeroIf_turn]
  generalize setZeroIfNegative c = s
  dsimp only
  have e1 : (turn Q s).mass = s.mass := rfl
  rw [e1]
  by_cases hm : s.mass ≠ 0
  · simp only [if_pos hm]
    rw [← zeroIf_turn]
    congr 1
    have e : (fun i => (turn Q s).mom i / s.mass) = fun i => ∑ k, Q i k * (s.mom k / s.mass) := by
      funext i
      simp only [turn, Finset.sum_div]
      exact Finset.sum_congr rfl fun k _ => by ring
    rw [e]
    unfold turn dynamicPressure
    simp only [dot_turn h]
  · simp only [if_neg hm]

theorem normal_turn (hF : Frames Q F F') (h : Orthonormal Q) (s : Tup d) :
    normalVelocity F' (turn Q s) = normalVelocity F s := by
  unfold normalVelocity turn
  simp only [hF.normal]
  exact dot_turn h s.mom (F 0)

theorem sc_turn (hF : Frames Q F F') (h : Orthonormal Q) (s : Tup d) :
    sc (globalToNormal F' (turn Q s)) = sc (globalToNormal F s) := by
  rw [sc_rotated hF.orthonormal, sc_rotated hF.orthonormal', normal_turn hF h]
  have : ∑ i, (turn Q s).mom i * (turn Q s).mom i = ∑ i, s.mom i * s.mom i := dot_turn h s.mom s.mom
  rw [this]
  rfl

theorem assembleGlobal_turn (hF : Frames Q F F') (c : Coef) (l r : Tup d) :
    assembleGlobal c (F' 0) (turn Q l) (turn Q r) = turn Q (assembleGlobal c (F 0) l r) := by
  unfold assembleGlobal turn
  simp only [Tup.mk.injEq, true_and, and_true]
  funext j
  rw [hF.normal]
  simp only [mul_add, Finset.sum_add_distrib, Finset.mul_sum]
  refine congrArg₂ (· + ·) (congrArg₂ (· + ·) ?_ ?_) ?_ <;>
    exact Finset.sum_congr rfl fun k _ => by ring

/-- Any solver that looks at scalars only. -/
theorem upwind_turn {γ : ℝ} {solver : Tup d → Tup d → Tup d} {coef : Sc → Sc → Coef}
    (ha : ∀ l r, solver l r = assemble (coef (sc l) (sc r)) l r) (hF : Frames Q F F') (h : Orthonormal Q) (l r : Tup d) :
    upwind γ solver F' (turn Q l) (turn Q r) = turn Q (upwind γ solver F l r) := by
  unfold upwind
  rw [toPrim_turn h, toPrim_turn h, ha, ha, sc_turn hF h, sc_turn hF h, assemble_global hF.orthonormal,
    assemble_global hF.orthonormal', assembleGlobal_turn hF]

theorem fluxOfPrim_turn (γ : ℝ) (hF : Frames Q F F') (h : Orthonormal Q) (s : Tup d) :
    fluxOfPrim γ F' (turn Q s) = turn Q (fluxOfPrim γ F s) := by
  rw [fluxOfPrim_eq hF.orthonormal, fluxOfPrim_eq hF.orthonormal', sc_turn hF h, assembleGlobal_turn hF]

/-! ### The exact solver -/

open MiniCFD.Exact in
/-- What the flux of the exact solver makes of the two states. -/
noncomputable def callCoef (γ : ℝ) (v : P3) (starU : ℝ) (l r : Sc) : Coef :=
  if 0 < starU then ⟨sideMass v, sideMass v, 0, sidePi l v, sideEnergy γ l v⟩
  else ⟨sideMass v, 0, sideMass v, sidePi r v, sideEnergy γ r v⟩

open MiniCFD.Exact in
theorem passive_assemble (γ : ℝ) (v : P3) (starU : ℝ) (l r : Tup d) :
    primFlux γ (setPassive v starU l r) = assemble (callCoef γ v starU (sc l) (sc r)) l r := by
  unfold callCoef
  by_cases h : 0 < starU
  · simp only [if_pos h, setPassive, gt_iff_lt, primFlux, toCons, dynamicPressure, Tup.scale,
      assemble]
    simp only [sum_passive l v.u, Tup.mk.injEq, Pi.smul_apply, smul_eq_mul, sideMass, sidePi,
      sideEnergy, if_true]
    refine ⟨by ring, ?_, by unfold sc; ring⟩
    funext i
    by_cases hi : i = 0
    · subst hi; simp only [if_true, sc]; ring
    · simp only [if_neg hi]; ring
  · simp only [if_neg h, setPassive, gt_iff_lt, primFlux, toCons, dynamicPressure, Tup.scale,
      assemble]
    simp only [sum_passive r v.u, Tup.mk.injEq, Pi.smul_apply, smul_eq_mul, sideMass, sidePi,
      sideEnergy, if_true]
    refine ⟨by ring, ?_, by unfold sc; ring⟩
    funext i
    by_cases hi : i = 0
    · subst hi; simp only [if_true, sc]; ring
    · simp only [if_neg hi]; ring

open MiniCFD.Exact in
theorem rotatedCall_turn (fuel : Nat) (γ starU : ℝ) (hF : Frames Q F F') (h : Orthonormal Q) (l r : Tup d) :
    rotatedCall fuel γ F' starU (turn Q l) (turn Q r) =
      (rotatedCall fuel γ F starU l r).map fun o => (turn Q o.1, o.2) := by
  have e : ∀ s : Tup d, P3.of (globalToNormal F' (turn Q s)) = P3.of (globalToNormal F s) := by
    intro s
    have := sc_turn hF h s
    have h2 := congrArg ofSc this
    exact h2
  unfold rotatedCall call
  rw [toPrim_turn h, toPrim_turn h, e, e, Option.map_map, Option.map_map, Option.map_map]
  congr 1
  funext res
  simp only [Function.comp_apply, Prod.mk.injEq, and_true]
  rw [passive_assemble, passive_assemble, sc_turn hF h, sc_turn hF h, assemble_global hF.orthonormal,
    assemble_global hF.orthonormal', assembleGlobal_turn hF]

/-! ### Boundaries -/

theorem solidWall_turn (γ : ℝ) (hF : Frames Q F F') (h : Orthonormal Q) (c : Tup d) :
    solidWall γ F' (turn Q c) = turn Q (solidWall γ F c) := by
  unfold solidWall
  rw [toPrim_turn h]
  have e : (turn Q (toPrim γ c)).energy = (toPrim γ c).energy := rfl
  simp only [e, normalToGlobal, sum_pick, turn, hF.normal, Finset.mul_sum, Tup.mk.injEq, true_and, and_true]
  funext j
  exact Finset.sum_congr rfl fun k _ => by ring

theorem push_turn (hF : Frames Q F F') (s : Tup d) (x y z : ℝ) :
    (⟨x, fun j => (turn Q s).mom j + y * F' 0 j, z⟩ : Tup d) = turn Q ⟨x, fun j => s.mom j + y * F 0 j, z⟩ := by
  unfold turn
  simp only [Tup.mk.injEq, true_and, and_true]
  funext j
  rw [hF.normal]
  simp only [mul_add, Finset.sum_add_distrib, Finset.mul_sum]
  refine congrArg₂ (· + ·) rfl (Finset.sum_congr rfl fun k _ => by ring)

theorem inletState_turn (γ : ℝ) (hF : Frames Q F F') (h : Orthonormal Q) (ci co : Tup d) :
    inletState γ F' (turn Q ci) (turn Q co) = turn Q (inletState γ F ci co) := by
  unfold inletState
  simp only [toPrim_turn h, normal_turn hF h]
  exact push_turn hF (toPrim γ co) _ _ _

theorem outletState_turn (γ : ℝ) (hF : Frames Q F F') (h : Orthonormal Q) (ci co : Tup d) :
    outletState γ F' (turn Q ci) (turn Q co) = turn Q (outletState γ F ci co) := by
  unfold outletState
  simp only [toPrim_turn h, normal_turn hF h]
  exact push_turn hF (toPrim γ ci) _ _ _

theorem supersonic_turn (γ : ℝ) (hF : Frames Q F F') (h : Orthonormal Q) (c : Tup d) :
    supersonicInlet γ F' (turn Q c) = turn Q (supersonicInlet γ F c) := by
  unfold supersonicInlet
  rw [toPrim_turn h, fluxOfPrim_turn γ hF h]

theorem subsonicInlet_turn (γ : ℝ) (hF : Frames Q F F') (h : Orthonormal Q) (ci co : Tup d) :
    subsonicInlet γ F' (turn Q ci) (turn Q co) = turn Q (subsonicInlet γ F ci co) := by
  unfold subsonicInlet
  rw [inletState_turn γ hF h, fluxOfPrim_turn γ hF h]

theorem subsonicOutlet_turn (γ : ℝ) (hF : Frames Q F F') (h : Orthonormal Q) (ci co : Tup d) :
    subsonicOutlet γ F' (turn Q ci) (turn Q co) = turn Q (subsonicOutlet γ F ci co) := by
  unfold subsonicOutlet
  rw [outletState_turn γ hF h, fluxOfPrim_turn γ hF h]

theorem smart_turn (γ : ℝ) (hF : Frames Q F F') (h : Orthonormal Q) (ci co : Tup d) :
    smartBoundary γ F' (turn Q ci) (turn Q co) = turn Q (smartBoundary γ F ci co) := by
  unfold smartBoundary
  have e : speedOfSound γ (turn Q (toPrim γ ci)) = speedOfSound γ (toPrim γ ci) := rfl
  simp only [toPrim_turn h, normal_turn hF h, e]
  split_ifs
  · exact supersonic_turn γ hF h co
  · exact subsonicInlet_turn γ hF h ci co
  · exact supersonic_turn γ hF h ci
  · exact subsonicOutlet_turn γ hF h ci co

/-! ### The flux inside of cells -/

theorem ortho_rows (h : Orthonormal Q) (i k : Fin (d + 1)) : ∑ l, Q i l * Q k l = if i = k then 1 else 0 := by
  have := congrFun (congrFun h i) k
  rw [Matrix.mul_apply, Matrix.one_apply] at this
  exact this

theorem fluxMatrix_turn (h : Orthonormal Q) (γ : ℝ) (c : Tup d) (k : Fin (d + 1)) :
    (fluxMatrix γ (turn Q c) k).mass = ∑ l, Q k l * (fluxMatrix γ c l).mass ∧
    (∀ i, (fluxMatrix γ (turn Q c) k).mom i = ∑ l, Q k l * (turn Q (fluxMatrix γ c l)).mom i) ∧
    (fluxMatrix γ (turn Q c) k).energy = ∑ l, Q k l * (fluxMatrix γ c l).energy := by
  unfold fluxMatrix
  simp only [toPrim_turn h]
  refine ⟨rfl, fun i => ?_, ?_⟩
  · have e1 : ∀ i l : Fin (d + 1), (if i = l then c.mom i * (toPrim γ c).mom l + (toPrim γ c).energy
        else c.mom i * (toPrim γ c).mom l) = c.mom i * (toPrim γ c).mom l + if i = l then (toPrim γ c).energy else 0 := by
      intro i l
      split <;> simp
    have e2 : (if i = k then (turn Q c).mom i * (turn Q (toPrim γ c)).mom k + (turn Q (toPrim γ c)).energy
        else (turn Q c).mom i * (turn Q (toPrim γ c)).mom k) =
        (turn Q c).mom i * (turn Q (toPrim γ c)).mom k + (if i = k then 1 else 0) * (toPrim γ c).energy := by
      split <;> simp [turn]
    rw [e2, ← ortho_rows h i k]
    simp only [e1, turn, mul_add, Finset.sum_add_distrib]
    congr 1
    · rw [Finset.sum_mul_sum, Finset.sum_comm]
      refine Finset.sum_congr rfl fun l _ => ?_
      rw [Finset.mul_sum]
      exact Finset.sum_congr rfl fun j _ => by ring
    · rw [Finset.sum_mul]
      refine Finset.sum_congr rfl fun l _ => ?_
      simp only [mul_ite, mul_zero, Finset.sum_ite_eq', Finset.mem_univ, if_true]
      ring
  · simp only [turn, Finset.mul_sum]
    exact Finset.sum_congr rfl fun k _ => by ring

end MiniCFD.Turn
