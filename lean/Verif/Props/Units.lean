import Verif.Lemmas.Units
import Verif.Props.Turn
import Verif.Props.Gas

/-!
# C138: units of measurement do not matter

`dg::General` of any degree with Euler's equations: the same flow in other units of density, velocity and length.
-/

namespace MiniCFD.Units

open MiniCFD.Spec.Units MiniCFD.Gas MiniCFD.Residual MiniCFD.Projection MiniCFD.Ortho MiniCFD.Euler MiniCFD.Spec.Euler
open MiniCFD.RK MiniCFD.Spec.RK MiniCFD.Spec.Gas
open MiniCFD.Spec.Turn (gas gradient Known OrthonormalBasis)
open MiniCFD.Turn (run_two)

/-! ### Solvers and boundary conditions -/

section

variable {d : Nat} (k : Units) (γ : ℝ) (F : Frame d) {l r : Tup d}

/-- **C138.** HLLC. -/
theorem hllc_units (hl : Fine k l) (hr : Fine k r) :
    upwind γ (hllc γ) F (k.state l) (k.state r) = k.flux (upwind γ (hllc γ) F l r) :=
  upwind_state k (hllc_prim k γ) F hl hr

/-- **C138.** AUSM. -/
theorem ausm_units (hl : Fine k l) (hr : Fine k r) :
    upwind γ (ausm γ) F (k.state l) (k.state r) = k.flux (upwind γ (ausm γ) F l r) :=
  upwind_state k (ausm_prim k γ) F hl hr

/-- **C138.** All boundary conditions. -/
theorem boundary_conditions_units (hl : Fine k l) (hr : Fine k r) :
    solidWall γ F (k.state l) = k.flux (solidWall γ F l) ∧
    supersonicInlet γ F (k.state r) = k.flux (supersonicInlet γ F r) ∧
    supersonicOutlet γ F (k.state l) = k.flux (supersonicOutlet γ F l) ∧
    subsonicInlet γ F (k.state l) (k.state r) = k.flux (subsonicInlet γ F l r) ∧
    subsonicOutlet γ F (k.state l) (k.state r) = k.flux (subsonicOutlet γ F l r) ∧
    smartBoundary γ F (k.state l) (k.state r) = k.flux (smartBoundary γ F l r) :=
  ⟨solidWall_state k γ F hl, supersonic_state k γ F hr, supersonic_state k γ F hl, subsonicInlet_state k γ F hl hr,
    subsonicOutlet_state k γ F hl hr, smart_state k γ F hl hr⟩

end

/-! ### Meshes -/

variable {Pt Pt' : Type} {n : Nat} {k : Units} {φ : Pt → Pt'} {γ : ℝ} {m : Mesh Pt n} {m' : Mesh Pt' n}
  {e : Fin m.count → Fin m'.count} {c : Conditions Pt 5} {c' : Conditions Pt' 5}

/-- **C138.** The residual found in new units, per old unit of time, is the residual found in old units. -/
theorem residual_follows (hi : Redrawn k φ m m' e) (hc : Likewise k φ c c') (hk : Known m c) (t : ℝ)
    {u : Fin m.count → Coeff 5 n} {u' : Fin m'.count → Coeff 5 n} (hu : Follows k φ m m' e u u') (hw : Weighs k m u) :
    Follows k φ m m' e (m.rates γ c t u) (k.time • m'.rates γ c' (k.time * t) u') := by
  intro p x
  obtain ⟨M, hM, hg⟩ := hi.span p
  have ho := span_units hi p hM
  have hcol : ∀ j l, ∑ i, k.length ^ 3 * M i j * M i l = if j = l then 1 else 0 := by
    intro j l
    have := congrFun (congrFun ho j) l
    rw [Matrix.mul_apply, Matrix.one_apply] at this
    exact this
  refine tup_of_value fun r => ?_
  have e1 : ∀ i, m'.rates γ c' (k.time * t) u' (e p) r i = comb (big k r) (M i) fun j => m.rates γ c t u p r j :=
    fun i => rates_units hi hc hk hu hw t p r (fun x => hM x i) fun x c => hg x i c
  simp only [Pi.smul_apply, smul_eq_mul, e1, hM, comb]
  have e2 : ∀ R B : Fin (n + 1) → ℝ,
      ∑ i, k.time * (big k r * ∑ j, M i j * R j) * ∑ l, M i l * B l = factor k r * ∑ j, R j * B j := by
    intro R B
    have hK : k.time * big k r = factor k r * k.length ^ 3 := by
      unfold Units.time big
      have := vel_ne k
      field_simp
    have : ∀ i, k.time * (big k r * ∑ j, M i j * R j) * ∑ l, M i l * B l =
        ∑ j, ∑ l, factor k r * (R j * B l) * (k.length ^ 3 * M i j * M i l) := by
      intro i
      rw [← mul_assoc k.time, hK, mul_assoc (factor k r * _), Finset.sum_mul_sum, Finset.mul_sum]
      refine Finset.sum_congr rfl fun j _ => ?_
      rw [Finset.mul_sum]
      exact Finset.sum_congr rfl fun l _ => by ring
    simp only [this]
    rw [Finset.sum_comm, Finset.mul_sum]
    refine Finset.sum_congr rfl fun j _ => ?_
    rw [Finset.sum_comm]
    simp only [← Finset.mul_sum, hcol, mul_ite, mul_one, mul_zero, Finset.sum_ite_eq, Finset.mem_univ, if_true]
  exact e2 (fun j => m.rates γ c t u p r j) (fun j => basisValues (m.basis p) x j)

theorem follows_lin {u w : Fin m.count → Coeff 5 n} {u' w' : Fin m'.count → Coeff 5 n}
    (hu : Follows k φ m m' e u u') (hw : Follows k φ m m' e w w') (a b : ℝ) :
    Follows k φ m m' e (a • u + b • w) (a • u' + b • w') := by
  intro p x
  refine tup_of_value fun r => ?_
  have h1 := state_value (hu p x) r
  have h2 := state_value (hw p x) r
  have ex : ∀ (y z B : Fin (n + 1) → ℝ), ∑ i, (a * y i + b * z i) * B i = a * ∑ i, y i * B i + b * ∑ i, z i * B i := by
    intro y z B
    rw [Finset.mul_sum, Finset.mul_sum, ← Finset.sum_add_distrib]
    exact Finset.sum_congr rfl fun i _ => by ring
  simp only [Pi.add_apply, Pi.smul_apply, smul_eq_mul, ex]
  rw [h1, h2]
  ring

/-! ### Time -/

section

variable {V W : Type*} [AddCommGroup V] [Module ℝ V] [AddCommGroup W] [Module ℝ W]

/-- A run in other units of time. -/
theorem run_time (σ : Stepper) (R : ℝ → V → V) (τ t dt : ℝ) (N : ℕ) (s w : Sys ℝ V) (h : s.sol = w.sol) :
    (run σ R (τ * t) (τ * dt) N s).sol = (run σ (fun t u => τ • R (τ * t) u) t dt N w).sol := by
  induction N with
  | zero => exact h
  | succ N ih =>
    show (RK.update σ R _ (τ * dt) (run σ R (τ * t) (τ * dt) N s)).sol =
      (RK.update σ (fun t u => τ • R (τ * t) u) _ dt (run σ (fun t u => τ • R (τ * t) u) t dt N w)).sol
    generalize run σ R (τ * t) (τ * dt) N s = q at ih ⊢
    generalize run σ (fun t u => τ • R (τ * t) u) t dt N w = q' at ih ⊢
    have e0 : τ * t + τ * dt * (N : ℝ) = τ * (t + dt * N) := by ring
    have e1 : τ * (t + dt * N) + τ * dt = τ * (t + dt * N + dt) := by ring
    have e2 : τ * (t + dt * N) + τ * dt / 2 = τ * (t + dt * N + dt / 2) := by ring
    have e3 : ∀ v : V, (τ * dt) • v = dt • τ • v := fun v => by rw [smul_smul, mul_comm]
    cases σ <;>
      simp only [RK.update, update1, update2, update3, eulerUpdate, nextSolution, Sys.residual, Sys.setTime, Sys.setSol,
        ih, e0, e1, e2, e3]

/-- What the first of two runs side by side has been evaluated at. -/
theorem evals_two (σ : Stepper) (R : ℝ → V → V) (R' : ℝ → W → W) (t dt : ℝ) (N : ℕ) (s : Sys ℝ V) (w : Sys ℝ W)
    (q : Sys ℝ (V × W)) (hq : q.sol = (s.sol, w.sol)) (he : q.evals.map (fun x => (x.1, x.2.1)) = s.evals) :
    (run σ (fun t p => (R t p.1, R' t p.2)) t dt N q).evals.map (fun x => (x.1, x.2.1)) = (run σ R t dt N s).evals := by
  induction N with
  | zero => exact he
  | succ N ih =>
    have h2 := run_two σ R R' t dt N s w q hq
    show (RK.update σ _ _ dt (run σ _ t dt N q)).evals.map _ = (RK.update σ R _ dt (run σ R t dt N s)).evals
    generalize run σ (fun t p => (R t p.1, R' t p.2)) t dt N q = q' at ih h2 ⊢
    cases σ <;>
      simp only [RK.update, update1, update2, update3, eulerUpdate, nextSolution, Sys.residual, Sys.setTime, Sys.setSol,
        h2, List.map_append, ih, List.map_cons, List.map_nil] <;> rfl

end

/-- **C138.** The same for runs of all orders: with time steps in the new unit, over any number of steps, as long as
nothing moves without mass. -/
theorem run_follows (hi : Redrawn k φ m m' e) (hc : Likewise k φ c c') (hk : Known m c) (σ : Stepper) (t dt : ℝ) (N : ℕ)
    (clock : ℝ) (u : Fin m.count → Coeff 5 n) (s' : Sys ℝ (Fin m'.count → Coeff 5 n))
    (hs : Follows k φ m m' e u s'.sol)
    (hw : ∀ x ∈ (run σ (m.rates γ c) t dt N ⟨clock, u, []⟩).evals, Weighs k m x.2) :
    Follows k φ m m' e (run σ (m.rates γ c) t dt N ⟨clock, u, []⟩).sol
      (run σ (m'.rates γ c') (k.time * t) (k.time * dt) N s').sol := by
  set R' : ℝ → (Fin m'.count → Coeff 5 n) → (Fin m'.count → Coeff 5 n) :=
    fun t u => k.time • m'.rates γ c' (k.time * t) u with hR'
  have ev := evals_two σ (m.rates γ c) R' t dt N ⟨clock, u, []⟩ ⟨clock, s'.sol, []⟩ ⟨clock, (u, s'.sol), []⟩ rfl rfl
  have key := (run_convex (S := fun p : (Fin m.count → Coeff 5 n) × (Fin m'.count → Coeff 5 n) =>
      Follows k φ m m' e p.1 p.2) (fun u w hu hw x _ _ => follows_lin hu hw x (1 - x)) σ
    (fun t p => (m.rates γ c t p.1, R' t p.2)) t dt N ⟨clock, (u, s'.sol), []⟩
    (fun x hx hp => by
      have hx' : (x.1, x.2.1) ∈ (run σ (m.rates γ c) t dt N ⟨clock, u, []⟩).evals := by
        rw [← ev]
        exact List.mem_map_of_mem (f := fun x => (x.1, x.2.1)) hx
      have := follows_lin hp (residual_follows (γ := γ) hi hc hk x.1 hp (hw _ hx')) 1 dt
      rw [one_smul, one_smul] at this
      exact this) hs (fun x hx => absurd hx (by simp))).1
  rw [run_two σ _ _ t dt N ⟨clock, u, []⟩ ⟨clock, s'.sol, []⟩ _ rfl] at key
  rw [run_time σ (m'.rates γ c') k.time t dt N s' ⟨clock, s'.sol, []⟩ rfl]
  exact key

/-- Gases have mass. -/
theorem weighs_of_positive {m : Mesh Pt 0} {u : Fin m.count → Coeff 5 0} (h : Positive m γ u) : Weighs k m u :=
  fun p x h0 => absurd h0 (h p x).1.ne'

/-- **C138.** Finite volumes with HLLC, with time steps as in C137: there the mass never vanishes. -/
theorem run_follows_gases {m : Mesh Pt 0} {m' : Mesh Pt' 0} {e : Fin m.count → Fin m'.count} [Nonempty Pt] {κ : Fin m.count → ℝ}
    (hi : Redrawn k φ m m' e) (hc : Likewise k φ c c') (hk : Known m c) (hγ : 1 < γ) (hr : Regular m c κ)
    (hs : Supported c) (he : Hllc m γ) (σ : Stepper) (t : ℝ) {dt : ℝ} (h0 : 0 ≤ dt) (N : ℕ) (clock : ℝ)
    (u : Fin m.count → Coeff 5 0) (hu : Positive m γ u)
    (hf : ∀ e ∈ (run σ (m.rates γ c) t dt N ⟨clock, u, []⟩).evals, FitsHllc m γ c dt e.1 e.2)
    (s' : Sys ℝ (Fin m'.count → Coeff 5 0)) (hs' : Follows k φ m m' e u s'.sol) :
    Follows k φ m m' e (run σ (m.rates γ c) t dt N ⟨clock, u, []⟩).sol
      (run σ (m'.rates γ c') (k.time * t) (k.time * dt) N s').sol :=
  run_follows hi hc hk σ t dt N clock u s' hs' fun x hx =>
    weighs_of_positive ((run_positive_hllc hγ hr hs he σ t h0 N clock u hu hf).2 x hx)

/-! ### The hypotheses are met: a tube in metres and in other units of length -/

/-- HLLC at a point. -/
noncomputable def port (γ s x : ℝ) (F : Frame 2) : Site ℝ := ⟨s ^ 2 * x, (s ^ 2) ^ 2, F, upwind γ (hllc γ) F⟩

/-- A tube of two cells, measured in units of which `s²` make a metre. -/
noncomputable def pipe (γ s : ℝ) : Mesh ℝ 0 where
  count := 2
  basis p := ⟨⟨fun _ _ => 1 / s ^ 3⟩, fun _ _ => 1, [(s ^ 2 * (1 / 2 + p.val), (s ^ 2) ^ 3)]⟩
  gradValue _ _ _ _ := 0
  nodes _ _ := 0
  inter _ := false
  faces := [(0, 1, [port γ s 1 east])]
  boundary name :=
    if name = "in" then some [(0, [port γ s 0 west])]
    else if name = "out" then some [(1, [port γ s 2 east])]
    else if name = "wall" then some [(1, [port γ s (3 / 2) north]), (1, [port γ s (3 / 2) south])] else none

theorem pipe_values (γ s : ℝ) (p : Fin 2) (x : ℝ) (i : Fin (0 + 1)) : basisValues ((pipe γ s).basis p) x i = 1 / s ^ 3 := by
  have : basisValues ((pipe γ s).basis p) x i =
      fullEval ((pipe γ s).basis p).linear (((pipe γ s).basis p).taylor x) i := rfl
  rw [this]
  simp [fullEval, pipe]

theorem pipe_basis (γ : ℝ) {s : ℝ} (hs : 0 < s) : OrthonormalBasis (pipe γ s) := by
  intro p i j
  obtain rfl : i = j := Subsingleton.elim (α := Fin 1) i j
  simp only [pipe_values γ s p, if_true]
  show integrate _ [(_, _)] = _
  simp [integrate_eq]
  field_simp

/-- Units of density and velocity, and `s²` of length. -/
def units (ρ v s : ℝ) (h : 0 < ρ ∧ 0 < v ∧ 0 < s) : Units := ⟨ρ, v, s ^ 2, h.1, h.2.1, pow_pos h.2.2 2⟩

theorem port_same (γ x : ℝ) (F : Frame 2) {ρ v s : ℝ} (h : 0 < ρ ∧ 0 < v ∧ 0 < s) :
    Same (units ρ v s h) (fun x => s ^ 2 * x) (port γ 1 x F) (port γ s x F) := by
  refine ⟨?_, ?_, rfl, fun l r hl hr => hllc_units _ γ F hl hr⟩
  · simp [port]
  · simp [port, units]

theorem pipe_redrawn (γ : ℝ) {ρ v s : ℝ} (h : 0 < ρ ∧ 0 < v ∧ 0 < s) :
    Redrawn (units ρ v s h) (fun x => s ^ 2 * x) (pipe γ 1) (pipe γ s) id := by
  refine ⟨Function.bijective_id, pipe_basis γ one_pos, pipe_basis γ h.2.2,
    fun p => ⟨fun _ _ => 1 / s ^ 3, fun x i => ?_, fun x i c => ?_⟩, fun p => ?_, ?_, fun name => ?_, fun _ p x i c => rfl⟩
  · refine (pipe_values γ s p (s ^ 2 * x) i).trans ?_
    have : ∀ j, basisValues ((pipe γ 1).basis p) x j = 1 / 1 ^ 3 := pipe_values γ 1 p x
    simp [this]
  · have h1 : ∀ j l, gradient (pipe γ 1) p x j l = 0 := fun _ _ => rfl
    refine (mul_zero (units ρ v s h).length).trans ?_
    simp only [h1, mul_zero, Finset.sum_const_zero]
  · show [(s ^ 2 * (1 / 2 + (p.val : ℝ)), (s ^ 2) ^ 3)] = [(s ^ 2 * (1 ^ 2 * (1 / 2 + (p.val : ℝ))), (s ^ 2) ^ 3 * (1 ^ 2) ^ 3)]
    simp
  · exact .cons ⟨rfl, rfl, .cons (port_same γ _ _ h) .nil⟩ .nil
  · unfold pipe
    dsimp only
    split_ifs
    · exact .cons ⟨rfl, .cons (port_same γ _ _ h) .nil⟩ .nil
    · exact .cons ⟨rfl, .cons (port_same γ _ _ h) .nil⟩ .nil
    · exact .cons ⟨rfl, .cons (port_same γ _ _ h) .nil⟩ (.cons ⟨rfl, .cons (port_same γ _ _ h) .nil⟩ .nil)
    · trivial

/-- A gas is blown in at the left, with a velocity that grows. -/
def blow (G : ℝ → Tup 2) : Conditions ℝ 5 where
  solidWall := ["wall"]
  smart := [("in", fun _ t => val (G t))]
  supersonicOutlet := ["out"]

theorem blow_likewise {ρ v s : ℝ} (h : 0 < ρ ∧ 0 < v ∧ 0 < s) {G : ℝ → Tup 2} (hG : ∀ t, (G t).mass ≠ 0) :
    Likewise (units ρ v s h) (fun x => s ^ 2 * x) (blow G)
      (blow fun t => (units ρ v s h).state (G (t / (units ρ v s h).time))) := by
  have ht : (units ρ v s h).time ≠ 0 := (div_pos (units ρ v s h).length_pos (units ρ v s h).velocity_pos).ne'
  refine ⟨rfl, rfl, .nil, .nil, .nil, .cons ⟨rfl, fun x t => ⟨?_, ?_⟩⟩ .nil⟩
  · show Fine _ (tup (val (G t)))
    rw [tup_val]
    exact fun h0 => absurd h0 (hG t)
  · show tup (val ((units ρ v s h).state (G ((units ρ v s h).time * t / (units ρ v s h).time)))) =
      (units ρ v s h).state (tup (val (G t)))
    rw [tup_val, tup_val, mul_div_cancel_left₀ _ ht]

theorem pipe_known (γ s : ℝ) (G : ℝ → Tup 2) : Known (pipe γ s) (blow G) := by
  intro job hj
  have : job.1 = "wall" ∨ job.1 = "out" ∨ job.1 = "in" := by
    simp only [jobs, blow, List.map_cons, List.map_nil, List.append_nil, List.nil_append, List.mem_append,
      List.mem_singleton] at hj
    rcases hj with (rfl | rfl) | rfl <;> simp
  rcases this with h | h | h <;> rw [h] <;> simp [pipe]

/-- Coefficients of two gases. -/
def fill (s : ℝ) (L R : Tup 2) (p : Fin 2) : Coeff 5 0 := fun r _ => s ^ 3 * val (if p = 0 then L else R) r

theorem fill_gas (γ : ℝ) {s : ℝ} (hs : 0 < s) (L R : Tup 2) (p : Fin 2) (x : ℝ) :
    gas (pipe γ s) p (fill s L R p) x = if p = 0 then L else R := by
  unfold gas
  have : ∀ j, basisValues ((pipe γ s).basis p) x j = 1 / s ^ 3 := pipe_values γ s p x
  simp only [this]
  have e : (fun r => ∑ _i : Fin (0 + 1), s ^ 3 * val (if p = 0 then L else R) r * (1 / s ^ 3)) =
      val (if p = 0 then L else R) := by
    funext r
    rw [Finset.sum_const, Finset.card_univ, Fintype.card_fin]
    rw [zero_add, one_smul]
    field_simp
  exact (congrArg tup e).trans (tup_val _)

theorem fill_follows (γ : ℝ) {ρ v s : ℝ} (h : 0 < ρ ∧ 0 < v ∧ 0 < s) (L R : Tup 2) :
    Follows (units ρ v s h) (fun x => s ^ 2 * x) (pipe γ 1) (pipe γ s) id (fill 1 L R)
      (fill s ((units ρ v s h).state L) ((units ρ v s h).state R)) := by
  intro p x
  refine (fill_gas γ h.2.2 _ _ p _).trans ?_
  refine Eq.trans ?_ (congrArg (units ρ v s h).state (fill_gas γ (s := 1) one_pos L R p x)).symm
  split_ifs <;> rfl

/-- Any units, such as grams, centimetres and minutes: a residual. -/
example (L R : Tup 2) (hL : L.mass ≠ 0) (hR : R.mass ≠ 0) (G : ℝ → Tup 2) (hG : ∀ t, (G t).mass ≠ 0) (t : ℝ)
    {ρ v s : ℝ} (h : 0 < ρ ∧ 0 < v ∧ 0 < s) :
    Follows (units ρ v s h) (fun x => s ^ 2 * x) (pipe γ 1) (pipe γ s) id ((pipe γ 1).rates γ (blow G) t (fill 1 L R))
      ((units ρ v s h).time • (pipe γ s).rates γ (blow fun t => (units ρ v s h).state (G (t / (units ρ v s h).time)))
        ((units ρ v s h).time * t) (fill s ((units ρ v s h).state L) ((units ρ v s h).state R))) := by
  refine residual_follows (pipe_redrawn γ h) (blow_likewise h hG) (pipe_known γ 1 G) t (fill_follows γ h L R) fun p x => ?_
  refine Eq.mpr (congrArg (Fine (units ρ v s h)) (fill_gas γ one_pos L R p x)) ?_
  split_ifs
  · exact fun h0 => absurd h0 hL
  · exact fun h0 => absurd h0 hR

/-- Any units of velocity and length: runs of any length, whatever becomes of the mass. -/
example (L R : Tup 2) (G : ℝ → Tup 2) (hG : ∀ t, (G t).mass ≠ 0) (σ : Stepper) (t dt : ℝ) (N : ℕ)
    {v s : ℝ} (h : (0 : ℝ) < 1 ∧ 0 < v ∧ 0 < s) :
    Follows (units 1 v s h) (fun x => s ^ 2 * x) (pipe γ 1) (pipe γ s) id
      (run σ ((pipe γ 1).rates γ (blow G)) t dt N ⟨t, fill 1 L R, []⟩).sol
      (run σ ((pipe γ s).rates γ (blow fun t => (units 1 v s h).state (G (t / (units 1 v s h).time))))
        ((units 1 v s h).time * t) ((units 1 v s h).time * dt) N
        ⟨t, fill s ((units 1 v s h).state L) ((units 1 v s h).state R), []⟩).sol :=
  run_follows (pipe_redrawn γ h) (blow_likewise h hG) (pipe_known γ 1 G) σ t dt N t (fill 1 L R) _
    (fill_follows γ h L R) fun _ _ _ _ _ => .inl rfl

end MiniCFD.Units
