import Verif.Lemmas.Gas
import Verif.Props.RK
import Verif.Props.Exact
import Mathlib.Tactic.FinCases

/-!
# C135, C137: at degree zero gases remain gases

`dg::General` of degree zero with `rotated::Euler<euler::Exact<Gas, 3>>` or HLLC and any of the Runge–Kutta methods.
-/

namespace MiniCFD.Gas

open MiniCFD.Spec.Gas MiniCFD.Residual MiniCFD.Projection MiniCFD.Ortho MiniCFD.Euler MiniCFD.Spec.Euler
open MiniCFD.Positive MiniCFD.Spec.Positive MiniCFD.RK MiniCFD.Spec.RK

/-! ### Steps which keep to a convex set where the residual is evaluated -/

section

variable {V : Type*} [AddCommGroup V] [Module ℝ V]

/-- Evaluations are not forgotten. -/
theorem evals_update (k : Stepper) (R : ℝ → V → V) (t dt : ℝ) (s : Sys ℝ V) :
    ∀ e ∈ s.evals, e ∈ (RK.update k R t dt s).evals := by
  intro e he
  cases k <;>
    simp only [RK.update, update1, update2, update3, eulerUpdate, nextSolution, Sys.residual, Sys.setTime, Sys.setSol,
      List.mem_append] <;> tauto

/-- If steps of Euler's method from all evaluated states stay in a convex set, then so does the whole step. -/
theorem update_convex {S : V → Prop} (hS : ConvexSet S) (k : Stepper) (R : ℝ → V → V) (t dt : ℝ) (s : Sys ℝ V)
    (hR : ∀ e ∈ (RK.update k R t dt s).evals, S e.2 → S (e.2 + dt • R e.1 e.2)) (h : S s.sol)
    (ho : ∀ e ∈ s.evals, S e.2) :
    S (RK.update k R t dt s).sol ∧ ∀ e ∈ (RK.update k R t dt s).evals, S e.2 := by
  cases k with
  | rk1 =>
    have e1 : (RK.update .rk1 R t dt s).evals = s.evals ++ [(t, s.sol)] := rfl
    rw [e1] at hR ⊢
    refine ⟨hR (t, s.sol) (by simp) h, fun e he => ?_⟩
    rcases List.mem_append.1 he with he | he
    · exact ho e he
    · obtain rfl := List.eq_of_mem_singleton he
      exact h
  | rk2 =>
    have e1 : (RK.update .rk2 R t dt s).evals =
        s.evals ++ [(t, s.sol)] ++ [(t + dt, s.sol + dt • R t s.sol)] := rfl
    rw [e1] at hR ⊢
    have h1 : S (s.sol + dt • R t s.sol) := hR (t, s.sol) (by simp) h
    have h2 := hR (t + dt, s.sol + dt • R t s.sol) (by simp) h1
    have h3 := hS _ _ h2 h (1 / 2) (by norm_num) (by norm_num)
    refine ⟨?_, fun e he => ?_⟩
    · have e2 : (RK.update .rk2 R t dt s).sol = (1 / 2 : ℝ) • (s.sol + dt • R t s.sol +
          dt • R (t + dt) (s.sol + dt • R t s.sol)) + (1 - 1 / 2 : ℝ) • s.sol := by
        show (2⁻¹ : ℝ) • (s.sol + dt • R t s.sol + dt • R (t + dt) (s.sol + dt • R t s.sol) + s.sol) = _
        match_scalars <;> norm_num
      rw [e2]
      exact h3
    · simp only [List.mem_append, List.mem_singleton] at he
      rcases he with (he | rfl) | rfl
      · exact ho e he
      · exact h
      · exact h1
  | rk3 =>
    set u1 := s.sol + dt • R t s.sol with hu1
    set u2 := (4 : ℝ)⁻¹ • ((3 : ℝ) • s.sol + (u1 + dt • R (t + dt) u1)) with hu2
    have e1 : (RK.update .rk3 R t dt s).evals = s.evals ++ [(t, s.sol)] ++ [(t + dt, u1)] ++ [(t + dt / 2, u2)] := rfl
    rw [e1] at hR ⊢
    have h1 : S u1 := hR (t, s.sol) (by simp) h
    have h2 := hR (t + dt, u1) (by simp) h1
    have h3 : S u2 := by
      have := hS _ _ h2 h (1 / 4) (by norm_num) (by norm_num)
      have e2 : u2 = (1 / 4 : ℝ) • (u1 + dt • R (t + dt) u1) + (1 - 1 / 4 : ℝ) • s.sol := by
        rw [hu2]; match_scalars <;> ring
      rw [e2]
      exact this
    have h4 := hR (t + dt / 2, u2) (by simp) h3
    have h5 := hS _ _ h4 h (2 / 3) (by norm_num) (by norm_num)
    refine ⟨?_, fun e he => ?_⟩
    · have e2 : (RK.update .rk3 R t dt s).sol =
          (2 / 3 : ℝ) • (u2 + dt • R (t + dt / 2) u2) + (1 - 2 / 3 : ℝ) • s.sol := by
        show (3 : ℝ)⁻¹ • ((2 : ℝ) • (u2 + dt • R (t + dt / 2) u2) + s.sol) = _
        match_scalars <;> ring
      rw [e2]
      exact h5
    · simp only [List.mem_append, List.mem_singleton] at he
      rcases he with ((he | rfl) | rfl) | rfl
      · exact ho e he
      · exact h
      · exact h1
      · exact h3

theorem run_convex {S : V → Prop} (hS : ConvexSet S) (k : Stepper) (R : ℝ → V → V) (t dt : ℝ) (N : ℕ) (s : Sys ℝ V)
    (hR : ∀ e ∈ (run k R t dt N s).evals, S e.2 → S (e.2 + dt • R e.1 e.2)) (h : S s.sol)
    (ho : ∀ e ∈ s.evals, S e.2) : S (run k R t dt N s).sol ∧ ∀ e ∈ (run k R t dt N s).evals, S e.2 := by
  induction N with
  | zero => exact ⟨h, ho⟩
  | succ N ih =>
    obtain ⟨i1, i2⟩ := ih fun e he => hR e (evals_update k R _ dt _ e he)
    exact update_convex hS k R _ dt _ hR i1 i2

end

/-! ### Gases -/

variable {Pt : Type} {m : Mesh Pt 0} {γ : ℝ} {c : Conditions Pt 5} {κ : Fin m.count → ℝ}

theorem hold_lin (u w : Fin m.count → Coeff 5 0) (x y : ℝ) (p : Fin m.count) :
    hold m κ (x • u + y • w) p = Tup.add (Tup.scale x (hold m κ u p)) (Tup.scale y (hold m κ w p)) := by
  have e : ∀ r, (x • u + y • w) p r 0 * κ p = x * (u p r 0 * κ p) + y * (w p r 0 * κ p) := by
    intro r
    simp only [Pi.add_apply, Pi.smul_apply, smul_eq_mul]
    ring
  unfold hold
  simp only [e]
  refine Tup.ext' rfl (fun i => ?_) rfl
  fin_cases i <;> rfl

theorem admissible_cone_of (hγ : 1 < γ) {U : Tup 2} (hU : Admissible γ U) : Cone U := fun v => ell_nonneg hγ hU v

theorem positive_convex (hγ : 1 < γ) : ConvexSet fun u => ∀ p, Admissible γ (hold m κ u p) := by
  intro u w hu hw x x0 x1 p
  rw [hold_lin]
  rcases x0.lt_or_eq with h | h
  · exact admissible_add hγ (admissible_scale (hu p) h) ((admissible_cone_of hγ (hw p)).scale (by linarith))
  · have e : Tup.add (Tup.scale x (hold m κ u p)) (Tup.scale (1 - x) (hold m κ w p)) = hold m κ w p := by
      subst h
      apply Tup.ext' <;> intros <;> simp [Tup.add, Tup.scale]
    rw [e]
    exact hw p

/-- **C135.** A step of Euler's method which fits the state leads from gases to gases. -/
theorem euler_step [Nonempty Pt] (hγ : 1 < γ) (h3 : γ ≤ 3) (hr : Regular m c κ) (hs : Supported c) (he : Exactly m γ)
    {t dt : ℝ} (h0 : 0 ≤ dt) {u : Fin m.count → Coeff 5 0} (hu : Positive m γ u) (hf : Fits m γ c dt t u) :
    Positive m γ (u + dt • m.rates γ c t u) := by
  intro p x
  rw [state_hold hr.constant]
  refine euler_positive γ hγ h3 hr hs he h0 (fun p => ?_) hf p
  have := hu p (Classical.arbitrary Pt)
  rwa [state_hold hr.constant] at this

/-- **C135.** A run of any of the methods, if its step fits all states in which the residual is evaluated: these and the
last one are gases. -/
theorem run_positive [Nonempty Pt] (hγ : 1 < γ) (h3 : γ ≤ 3) (hr : Regular m c κ) (hs : Supported c) (he : Exactly m γ)
    (k : Stepper) (t : ℝ) {dt : ℝ} (h0 : 0 ≤ dt) (N : ℕ) (clock : ℝ) (u : Fin m.count → Coeff 5 0) (hu : Positive m γ u)
    (hf : ∀ e ∈ (run k (m.rates γ c) t dt N ⟨clock, u, []⟩).evals, Fits m γ c dt e.1 e.2) :
    Positive m γ (run k (m.rates γ c) t dt N ⟨clock, u, []⟩).sol ∧
      ∀ e ∈ (run k (m.rates γ c) t dt N ⟨clock, u, []⟩).evals, Positive m γ e.2 := by
  have key := run_convex (positive_convex (m := m) (κ := κ) hγ) k (m.rates γ c) t dt N ⟨clock, u, []⟩
    (fun e hev hS => euler_positive γ hγ h3 hr hs he h0 hS (hf e hev))
    (fun p => by
      have := hu p (Classical.arbitrary Pt)
      rwa [state_hold hr.constant] at this)
    (fun e he => absurd he (by simp))
  refine ⟨fun p x => ?_, fun e hev p x => ?_⟩
  · rw [state_hold hr.constant]
    exact key.1 p
  · rw [state_hold hr.constant]
    exact key.2 e hev p

/-- **C137.** The same for HLLC: gases need not touch. -/
theorem euler_step_hllc [Nonempty Pt] (hγ : 1 < γ) (hr : Regular m c κ) (hs : Supported c) (he : Hllc m γ)
    {t dt : ℝ} (h0 : 0 ≤ dt) {u : Fin m.count → Coeff 5 0} (hu : Positive m γ u) (hf : FitsHllc m γ c dt t u) :
    Positive m γ (u + dt • m.rates γ c t u) := by
  intro p x
  rw [state_hold hr.constant]
  refine euler_positive_hllc γ hγ hr hs he h0 (fun p => ?_) hf p
  have := hu p (Classical.arbitrary Pt)
  rwa [state_hold hr.constant] at this

/-- **C137.** Runs with HLLC. -/
theorem run_positive_hllc [Nonempty Pt] (hγ : 1 < γ) (hr : Regular m c κ) (hs : Supported c) (he : Hllc m γ)
    (k : Stepper) (t : ℝ) {dt : ℝ} (h0 : 0 ≤ dt) (N : ℕ) (clock : ℝ) (u : Fin m.count → Coeff 5 0) (hu : Positive m γ u)
    (hf : ∀ e ∈ (run k (m.rates γ c) t dt N ⟨clock, u, []⟩).evals, FitsHllc m γ c dt e.1 e.2) :
    Positive m γ (run k (m.rates γ c) t dt N ⟨clock, u, []⟩).sol ∧
      ∀ e ∈ (run k (m.rates γ c) t dt N ⟨clock, u, []⟩).evals, Positive m γ e.2 := by
  have key := run_convex (positive_convex (m := m) (κ := κ) hγ) k (m.rates γ c) t dt N ⟨clock, u, []⟩
    (fun e hev hS => euler_positive_hllc γ hγ hr hs he h0 hS (hf e hev))
    (fun p => by
      have := hu p (Classical.arbitrary Pt)
      rwa [state_hold hr.constant] at this)
    (fun e he => absurd he (by simp))
  refine ⟨fun p x => ?_, fun e hev p x => ?_⟩
  · rw [state_hold hr.constant]
    exact key.1 p
  · rw [state_hold hr.constant]
    exact key.2 e hev p

/-! ### The hypotheses are met: a tube of two cells between an inlet, an outlet and two walls -/

/-- A function that answers like the exact solver wherever this one answers. -/
noncomputable def exact (γ : ℝ) (F : Frame 2) (l r : Tup 2) : Tup 2 :=
  @Classical.epsilon (Tup 2) ⟨l⟩ fun o => ∃ fuel s u, Exact.rotatedCall fuel γ F s l r = some (o, u)

theorem exact_spec (hγ : 1 < γ) (F : Frame 2) {l r : Tup 2} (hl : Admissible γ l) (hr : Admissible γ r) :
    ∃ fuel s u, Exact.rotatedCall fuel γ F s l r = some (exact γ F l r, u) := by
  obtain ⟨n, hn⟩ := Exact.call_total hγ 0 (globalToNormal F (toPrim γ l)) (globalToNormal F (toPrim γ r))
    (toPrim_admissible hγ hl) (toPrim_admissible hγ hr)
  obtain ⟨o, ho⟩ := hn n le_rfl
  unfold exact
  refine Classical.epsilon_spec (p := fun o => ∃ fuel s u, Exact.rotatedCall fuel γ F s l r = some (o, u))
    ⟨normalToGlobal F o.1, n, 0, o.2, ?_⟩
  simp [Exact.rotatedCall, ho]

def east : Frame 2 := 1
def west : Frame 2 := !![-1, 0, 0; 0, -1, 0; 0, 0, 1]
def north : Frame 2 := !![0, 1, 0; -1, 0, 0; 0, 0, 1]
def south : Frame 2 := !![0, -1, 0; 1, 0, 0; 0, 0, 1]

theorem orthonormal_all : Orthonormal east ∧ Orthonormal west ∧ Orthonormal north ∧ Orthonormal south := by
  refine ⟨?_, ?_, ?_, ?_⟩
  · simp [Orthonormal, east]
  all_goals
    unfold Orthonormal
    ext i j
    fin_cases i <;> fin_cases j <;> simp [west, north, south, Matrix.mul_apply, Fin.sum_univ_three]

/-- A point with a solver. -/
def site (f : Frame 2 → Tup 2 → Tup 2 → Tup 2) (x : ℝ) (F : Frame 2) : Site ℝ := ⟨x, 1, F, f F⟩

variable {f : Frame 2 → Tup 2 → Tup 2 → Tup 2}

/-- The constant one, with the midpoint rule. -/
noncomputable def unit (middle : ℝ) : Basis ℝ 0 := ⟨⟨fun _ _ => 1⟩, fun _ _ => 1, [(middle, 1)]⟩

noncomputable def tube (f : Frame 2 → Tup 2 → Tup 2 → Tup 2) : Mesh ℝ 0 where
  count := 2
  basis p := unit (1 / 2 + p.val)
  gradValue _ _ _ _ := 0
  nodes _ _ := 0
  inter _ := false
  faces := [(0, 1, [site f 1 east])]
  boundary name :=
    if name = "in" then some [(0, [site f 0 west])]
    else if name = "out" then some [(1, [site f 2 east])]
    else if name = "wall" then some [(1, [site f (3 / 2) north]), (1, [site f (3 / 2) south])] else none

/-- The conditions, with `G` coming in. -/
def flow (G : Tup 2) : Conditions ℝ 5 where
  solidWall := ["wall"]
  supersonicInlet := [("in", fun _ _ => val G)]
  supersonicOutlet := ["out"]

theorem tube_rim {name : String} {faces : List (Fin 2 × List (Site ℝ))} (h : (tube f).boundary name = some faces) :
    ∀ g ∈ faces, ∀ q ∈ g.2, q = site f 0 west ∨ q = site f 2 east ∨ q = site f (3 / 2) north ∨
      q = site f (3 / 2) south := by
  intro g hf q hq
  simp only [tube] at h
  split_ifs at h
  · obtain rfl := Option.some.inj h
    obtain rfl := List.eq_of_mem_singleton hf
    exact .inl (List.eq_of_mem_singleton hq)
  · obtain rfl := Option.some.inj h
    obtain rfl := List.eq_of_mem_singleton hf
    exact .inr (.inl (List.eq_of_mem_singleton hq))
  · obtain rfl := Option.some.inj h
    simp only [List.mem_cons, List.not_mem_nil, or_false] at hf
    rcases hf with rfl | rfl
    · exact .inr (.inr (.inl (List.eq_of_mem_singleton hq)))
    · exact .inr (.inr (.inr (List.eq_of_mem_singleton hq)))

theorem tube_constant : Constant (tube f) fun _ => 1 := by
  intro p x i
  have : basisValues ((tube f).basis p) x i = fullEval (unit (1 / 2 + p.val)).linear
    ((unit (1 / 2 + p.val)).taylor x) i := rfl
  rw [this]
  simp [fullEval, unit]

theorem tube_regular (G : Tup 2) : Regular (tube f) (flow G) fun _ => 1 := by
  obtain ⟨o1, o2, o3, o4⟩ := orthonormal_all
  refine ⟨tube_constant, ?_, ?_, ?_, ?_, ?_, ?_, ?_, ?_⟩
  · intro p
    simp only [tube_constant p]
    show integrate _ [(_, _)] = _
    simp [integrate_eq]
  · intro p v x k
    rfl
  · intro p k
    match p with
    | ⟨0, _⟩ =>
      fin_cases k <;>
        simp [surface, tube, names, flow, rim, face, site, east, west]
    | ⟨1, _⟩ =>
      fin_cases k <;>
        simp [surface, tube, names, flow, rim, face, site, east, north, south]
  · intro g hf q hq
    obtain rfl := List.eq_of_mem_singleton hf
    obtain rfl := List.eq_of_mem_singleton hq
    exact zero_le_one
  · intro name faces h g hf q hq
    rcases tube_rim h g hf q hq with rfl | rfl | rfl | rfl <;> exact zero_le_one
  · intro g hf q hq
    obtain rfl := List.eq_of_mem_singleton hf
    obtain rfl := List.eq_of_mem_singleton hq
    exact o1
  · intro name faces h g hf q hq
    rcases tube_rim h g hf q hq with rfl | rfl | rfl | rfl <;> assumption
  · intro name h
    have h' : name = "wall" ∨ name = "in" ∨ name = "out" := by simpa [names, flow] using h
    rcases h' with rfl | rfl | rfl <;> simp [tube]

theorem tube_exactly {γ : ℝ} (hγ : 1 < γ) : Exactly (tube (exact γ)) γ := by
  intro g hf q hq l r hl hr _
  obtain rfl := List.eq_of_mem_singleton hf
  obtain rfl := List.eq_of_mem_singleton hq
  exact exact_spec hγ _ hl hr

/-- The gases in the two cells. -/
def gases (L R : Tup 2) (p : Fin 2) : Coeff 5 0 := fun r _ => val (if p = 0 then L else R) r

theorem tube_state (L R : Tup 2) (p : Fin 2) (x : ℝ) :
    state (tube f) p (gases L R p) x = if p = 0 then L else R := by
  refine (state_hold (m := tube f) tube_constant (gases L R) p x).trans ?_
  unfold hold
  simp only [gases, mul_one]
  exact tup_val _

/-- What is asked of boundaries, and how a step is found. -/
theorem tube_edges {L R G : Tup 2} {γ A : ℝ} (hG : Admissible γ G) (hi : velAlong (west 0) G ≤ -sound γ G) (A0 : 0 ≤ A)
    (A3 : γ * |velAlong (north 0) R| ≤ A) (A4 : γ * |velAlong (south 0) R| ≤ A)
    (A5 : |velAlong (west 0) L| + sound γ L ≤ A) (t : ℝ) :
    Inflow (tube f) γ (flow G) t ∧ Edges (tube f) γ (flow G) (gases L R) (fun _ => A) := by
  have s0 := tube_state (f := f) L R 0
  have s1 := tube_state (f := f) L R 1
  simp only [if_true, Fin.one_eq_zero_iff, Nat.succ_ne_self, if_false] at s0 s1
  refine ⟨?_, ?_, ?_, ?_⟩
  · intro nf h faces hb g hf q hq
    obtain rfl := List.eq_of_mem_singleton h
    simp only [tube] at hb
    obtain rfl := Option.some.inj hb
    obtain rfl := List.eq_of_mem_singleton hf
    obtain rfl := List.eq_of_mem_singleton hq
    simp only [tup_val]
    exact ⟨hG, hi⟩
  · intro name h faces hb g hf q hq
    obtain rfl := List.eq_of_mem_singleton h
    have hb' : faces = [((1 : Fin 2), [site f (3 / 2) north]), (1, [site f (3 / 2) south])] :=
      (Option.some.inj hb).symm
    subst hb'
    have hf' : g = ((1 : Fin 2), [site f (3 / 2) north]) ∨ g = ((1 : Fin 2), [site f (3 / 2) south]) := by
      rcases List.mem_cons.1 hf with h | h
      · exact .inl h
      · exact .inr (List.eq_of_mem_singleton h)
    rcases hf' with rfl | rfl
    · obtain rfl := List.eq_of_mem_singleton hq
      show γ * |velAlong (north 0) (state (tube f) (1 : Fin 2) _ (3 / 2))| ≤ A
      rw [s1]
      exact A3
    · obtain rfl := List.eq_of_mem_singleton hq
      show γ * |velAlong (south 0) (state (tube f) (1 : Fin 2) _ (3 / 2))| ≤ A
      rw [s1]
      exact A4
  · intro nf h faces hb g hf q hq
    obtain rfl := List.eq_of_mem_singleton h
    have hb' : faces = [((0 : Fin 2), [site f 0 west])] := (Option.some.inj hb).symm
    subst hb'
    obtain rfl := List.eq_of_mem_singleton hf
    obtain rfl := List.eq_of_mem_singleton hq
    show |velAlong (west 0) (state (tube f) (0 : Fin 2) _ 0)| + sound γ (state (tube f) (0 : Fin 2) _ 0) ≤ A
    rw [s0]
    exact A5
  · intro name h faces hb g hf q hq
    exact A0

theorem tube_courant (G : Tup 2) (A : ℝ) : ∃ dt, 0 < dt ∧ Courant (tube f) (flow G) dt fun _ => A := by
  set S := fun p => around (tube f) (flow G) p fun _ => A
  have hV : ∀ p : Fin 2, volume (tube f) p = 1 := by
    intro p
    show integrate _ [(_, _)] = _
    simp [integrate_eq]
  have hS : 0 < 1 + |S (0 : Fin 2)| + |S (1 : Fin 2)| := by positivity
  refine ⟨1 / (1 + |S (0 : Fin 2)| + |S (1 : Fin 2)|), by positivity, fun p => ?_⟩
  rw [hV p, div_mul_eq_mul_div, one_mul, div_lt_one hS]
  have h0 := le_abs_self (S (0 : Fin 2))
  have h1 := le_abs_self (S (1 : Fin 2))
  have k0 := abs_nonneg (S (0 : Fin 2))
  have k1 := abs_nonneg (S (1 : Fin 2))
  match p with
  | ⟨0, _⟩ =>
    show S (0 : Fin 2) < _
    linarith
  | ⟨1, _⟩ =>
    show S (1 : Fin 2) < _
    linarith

theorem above (a1 a2 a3 a4 a5 : ℝ) : ∃ A : ℝ, 0 ≤ A ∧ a1 ≤ A ∧ a2 ≤ A ∧ a3 ≤ A ∧ a4 ≤ A ∧ a5 ≤ A := by
  have h1 := abs_nonneg a1
  have h2 := abs_nonneg a2
  have h3 := abs_nonneg a3
  have h4 := abs_nonneg a4
  have h5 := abs_nonneg a5
  have k1 := le_abs_self a1
  have k2 := le_abs_self a2
  have k3 := le_abs_self a3
  have k4 := le_abs_self a4
  have k5 := le_abs_self a5
  exact ⟨|a1| + |a2| + |a3| + |a4| + |a5|, by linarith, by linarith, by linarith, by linarith, by linarith, by linarith⟩

/-- For any gases that touch, and any gas coming in fast enough, some step fits. -/
theorem tube_fits {L R G : Tup 2} (hG : Admissible γ G) (hi : velAlong (west 0) G ≤ -sound γ G)
    (ht : Touch γ (east 0) L R) : ∃ dt, 0 < dt ∧ ∀ t, Fits (tube (exact γ)) γ (flow G) dt t (gases L R) := by
  obtain ⟨A, A0, A1, A2, A3, A4, A5⟩ := above (reach γ (impact γ (east 0) L R) (east 0) L)
    (reach γ (impact γ (east 0) L R) (east 0) R) (γ * |velAlong (north 0) R|) (γ * |velAlong (south 0) R|)
    (|velAlong (west 0) L| + sound γ L)
  obtain ⟨dt, h0, hC⟩ := tube_courant (f := exact γ) G A
  have s0 := tube_state (f := exact γ) L R 0
  have s1 := tube_state (f := exact γ) L R 1
  simp only [if_true, Fin.one_eq_zero_iff, Nat.succ_ne_self, if_false] at s0 s1
  refine ⟨dt, h0, fun t => ?_⟩
  obtain ⟨e1, e2⟩ := tube_edges (f := exact γ) (L := L) hG hi A0 A3 A4 A5 t
  refine ⟨e1, fun _ => A, ⟨e2, ?_, ?_, ?_⟩, hC⟩
  · intro g hf q hq
    obtain rfl := List.eq_of_mem_singleton hf
    obtain rfl := List.eq_of_mem_singleton hq
    show Touch γ (east 0) (state (tube _) (0 : Fin 2) _ 1) (state (tube _) (1 : Fin 2) _ 1)
    rw [s0, s1]
    exact ht
  · intro g hf q hq
    obtain rfl := List.eq_of_mem_singleton hf
    obtain rfl := List.eq_of_mem_singleton hq
    show reach γ (impact γ (east 0) (state (tube _) (0 : Fin 2) _ 1) (state (tube _) (1 : Fin 2) _ 1)) (east 0)
      (state (tube _) (0 : Fin 2) _ 1) ≤ A
    rw [s0, s1]
    exact A1
  · intro g hf q hq
    obtain rfl := List.eq_of_mem_singleton hf
    obtain rfl := List.eq_of_mem_singleton hq
    show reach γ (impact γ (east 0) (state (tube _) (0 : Fin 2) _ 1) (state (tube _) (1 : Fin 2) _ 1)) (east 0)
      (state (tube _) (1 : Fin 2) _ 1) ≤ A
    rw [s0, s1]
    exact A2

/-- With HLLC gases need not touch. -/
theorem tube_fits_hllc {L R G : Tup 2} (hG : Admissible γ G) (hi : velAlong (west 0) G ≤ -sound γ G) :
    ∃ dt, 0 < dt ∧ ∀ t, FitsHllc (tube (upwind γ (hllc γ))) γ (flow G) dt t (gases L R) := by
  obtain ⟨A, A0, A1, A2, A3, A4, A5⟩ := above (reach γ (pvrs γ (east 0) L R) (east 0) L)
    (reach γ (pvrs γ (east 0) L R) (east 0) R) (γ * |velAlong (north 0) R|) (γ * |velAlong (south 0) R|)
    (|velAlong (west 0) L| + sound γ L)
  obtain ⟨dt, h0, hC⟩ := tube_courant (f := upwind γ (hllc γ)) G A
  have s0 := tube_state (f := upwind γ (hllc γ)) L R 0
  have s1 := tube_state (f := upwind γ (hllc γ)) L R 1
  simp only [if_true, Fin.one_eq_zero_iff, Nat.succ_ne_self, if_false] at s0 s1
  refine ⟨dt, h0, fun t => ?_⟩
  obtain ⟨e1, e2⟩ := tube_edges (f := upwind γ (hllc γ)) (L := L) hG hi A0 A3 A4 A5 t
  refine ⟨e1, fun _ => A, ⟨e2, ?_, ?_⟩, hC⟩
  · intro g hf q hq
    obtain rfl := List.eq_of_mem_singleton hf
    obtain rfl := List.eq_of_mem_singleton hq
    show reach γ (pvrs γ (east 0) (state (tube _) (0 : Fin 2) _ 1) (state (tube _) (1 : Fin 2) _ 1)) (east 0)
      (state (tube _) (0 : Fin 2) _ 1) ≤ A
    rw [s0, s1]
    exact A1
  · intro g hf q hq
    obtain rfl := List.eq_of_mem_singleton hf
    obtain rfl := List.eq_of_mem_singleton hq
    show reach γ (pvrs γ (east 0) (state (tube _) (0 : Fin 2) _ 1) (state (tube _) (1 : Fin 2) _ 1)) (east 0)
      (state (tube _) (1 : Fin 2) _ 1) ≤ A
    rw [s0, s1]
    exact A2

theorem three (g : Fin (2 + 1) → ℝ) : ∑ i, g i = g 0 + g 1 + g 2 := Fin.sum_univ_three g

theorem third (x y z : ℝ) : (![x, y, z] : Fin (2 + 1) → ℝ) 2 = z := rfl

/-- A dense gas beside a thin one, and a stream at Mach number 1.69 coming in. -/
example : ∃ dt, 0 < dt ∧ ∀ t, Positive (tube (exact (7 / 5))) (7 / 5)
    (run .rk1 ((tube (exact (7 / 5))).rates (7 / 5) (flow ⟨1, ![2, 0, 0], 9 / 2⟩)) t dt 1
      ⟨t, gases ⟨1, 0, 5 / 2⟩ ⟨1 / 8, 0, 1 / 4⟩, []⟩).sol := by
  have hL : Admissible (7 / 5) (⟨1, 0, 5 / 2⟩ : Tup 2) := by norm_num [Admissible, pressure]
  have hR : Admissible (7 / 5) (⟨1 / 8, 0, 1 / 4⟩ : Tup 2) := by norm_num [Admissible, pressure]
  have hG : Admissible (7 / 5) (⟨1, ![2, 0, 0], 9 / 2⟩ : Tup 2) := by
    norm_num [Admissible, pressure, three, third]
  have hi : velAlong (west 0) (⟨1, ![2, 0, 0], 9 / 2⟩ : Tup 2) ≤ -sound (7 / 5) ⟨1, ![2, 0, 0], 9 / 2⟩ := by
    have : sound (7 / 5) (⟨1, ![2, 0, 0], 9 / 2⟩ : Tup 2) ≤ 2 := by
      unfold sound
      rw [Real.sqrt_le_left (by norm_num)]
      norm_num [pressure, three, third]
    have e : velAlong (west 0) (⟨1, ![2, 0, 0], 9 / 2⟩ : Tup 2) = -2 := by
      norm_num [velAlong, vel, west, three, third]
    linarith
  have ht : Touch (7 / 5) (east 0) (⟨1, 0, 5 / 2⟩ : Tup 2) ⟨1 / 8, 0, 1 / 4⟩ := by
    have h1 : 0 < sound (7 / 5) (⟨1, 0, 5 / 2⟩ : Tup 2) := Real.sqrt_pos.2 (by norm_num [pressure])
    have h2 : 0 < sound (7 / 5) (⟨1 / 8, 0, 1 / 4⟩ : Tup 2) := Real.sqrt_pos.2 (by norm_num [pressure])
    have e1 : velAlong (east 0) (⟨1, 0, 5 / 2⟩ : Tup 2) = 0 := by simp [velAlong, vel]
    have e2 : velAlong (east 0) (⟨1 / 8, 0, 1 / 4⟩ : Tup 2) = 0 := by simp [velAlong, vel]
    unfold Touch
    rw [e1, e2, sub_zero]
    norm_num
    linarith
  obtain ⟨dt, h0, hf⟩ := tube_fits hG hi ht
  refine ⟨dt, h0, fun t => (run_positive (by norm_num) (by norm_num) (tube_regular _) ⟨rfl, rfl, rfl⟩
    (tube_exactly (by norm_num)) .rk1 t h0.le 1 t _ ?_ ?_).1⟩
  · intro p x
    have := tube_state (f := exact (7 / 5)) ⟨1, 0, 5 / 2⟩ ⟨1 / 8, 0, 1 / 4⟩ p x
    rw [show state (tube (exact (7 / 5))) p (gases ⟨1, 0, 5 / 2⟩ ⟨1 / 8, 0, 1 / 4⟩ p) x = _ from this]
    split_ifs
    · exact hL
    · exact hR
  · intro e he
    obtain rfl := List.eq_of_mem_singleton he
    exact hf _

/-- Gases that part fast enough for a vacuum between them. -/
example (γ : ℝ) (hγ : 1 < γ) (v : ℝ) {G : Tup 2} (hG : Admissible γ G) (hi : velAlong (west 0) G ≤ -sound γ G) :
    ∃ dt, 0 < dt ∧ ∀ t, Positive (tube (upwind γ (hllc γ))) γ
    (run .rk1 ((tube (upwind γ (hllc γ))).rates γ (flow G)) t dt 1
      ⟨t, gases ⟨1, ![-v, 0, 0], v * v / 2 + 1⟩ ⟨1, ![v, 0, 0], v * v / 2 + 1⟩, []⟩).sol := by
  have h1 : 0 < γ - 1 := by linarith
  have hL : Admissible γ (⟨1, ![-v, 0, 0], v * v / 2 + 1⟩ : Tup 2) := by
    refine ⟨one_pos, ?_⟩
    unfold pressure
    rw [three]
    simp only [third, Matrix.cons_val_zero, Matrix.cons_val_one]
    refine mul_pos h1 ?_
    ring_nf
    norm_num
  have hR : Admissible γ (⟨1, ![v, 0, 0], v * v / 2 + 1⟩ : Tup 2) := by
    refine ⟨one_pos, ?_⟩
    unfold pressure
    rw [three]
    simp only [third, Matrix.cons_val_zero, Matrix.cons_val_one]
    refine mul_pos h1 ?_
    ring_nf
    norm_num
  obtain ⟨dt, h0, hf⟩ := tube_fits_hllc (L := ⟨1, ![-v, 0, 0], v * v / 2 + 1⟩) (R := ⟨1, ![v, 0, 0], v * v / 2 + 1⟩) hG hi
  refine ⟨dt, h0, fun t => (run_positive_hllc hγ (tube_regular _) ⟨rfl, rfl, rfl⟩ ?_ .rk1 t h0.le 1 t _ ?_ ?_).1⟩
  · intro g hf q hq
    obtain rfl := List.eq_of_mem_singleton hf
    obtain rfl := List.eq_of_mem_singleton hq
    rfl
  · intro p x
    have := tube_state (f := upwind γ (hllc γ)) ⟨1, ![-v, 0, 0], v * v / 2 + 1⟩ ⟨1, ![v, 0, 0], v * v / 2 + 1⟩ p x
    rw [show state (tube (upwind γ (hllc γ))) p (gases ⟨1, ![-v, 0, 0], v * v / 2 + 1⟩ ⟨1, ![v, 0, 0], v * v / 2 + 1⟩ p) x
      = _ from this]
    split_ifs
    · exact hL
    · exact hR
  · intro e he
    obtain rfl := List.eq_of_mem_singleton he
    exact hf _

end MiniCFD.Gas
