import Verif.Spec.Driver
import Verif.Props.Parallel
import Verif.Props.Reconstruct
import Verif.Props.Weno
import Mathlib.Tactic.Module

/-! C81: what is in the mesh at the end of a run is what was in it at the beginning, less what has left it. -/

namespace MiniCFD.Driver

open MiniCFD.Spec.Driver MiniCFD.RK MiniCFD.Residual MiniCFD.Projection MiniCFD.Parallel MiniCFD.Spec.Residual

section

variable {F V W : Type*} [Field F] [AddCommGroup V] [Module F V] [AddCommGroup W] [Module F W]

/-- Without a limiter the steps are those of `Verif.Model.RK`. -/
theorem updateWith_id (k : Stepper) (R : F → V → V) (t dt : F) (s : Sys F V) :
    updateWith id k R t dt s = RK.update k R t dt s := by
  cases k <;> rfl

/-- What a step does to the solution depends neither on the clock of the system nor on its past, so the main loop, as in
C79, is a run. -/
theorem after_run (limit : V → V) (k : Stepper) (R : F → V → V) (t dt clock : F) (N : Nat) (s : Sys F V) :
    after (fun t u => (updateWith limit k R t dt ⟨clock, u, []⟩).sol) t dt s.sol N = (runWith limit k R t dt N s).sol := by
  induction N with
  | zero => rfl
  | succ N ih =>
    unfold after runWith
    rw [ih]
    cases k <;> rfl

/-- The weights add up to one. -/
theorem weights_sum [CharZero F] (k : Stepper) : (weights k : List F).sum = 1 := by
  cases k
  · simp [weights]
  · simp only [weights, List.sum_cons, List.sum_nil]; field_simp; norm_num
  · simp only [weights, List.sum_cons, List.sum_nil]; field_simp; norm_num

/-- **C81** A linear quantity which the limiter keeps changes in a step by `dt` times the weighted average of its rates at
the stages. -/
theorem step_balance [CharZero F] (L : V →ₗ[F] W) {limit : V → V} (hl : ∀ u, L (limit u) = L u) (k : Stepper)
    (R : F → V → V) (t dt : F) (s : Sys F V) :
    ∃ us : List V, us.length = (weights (F := F) k).length ∧
      (updateWith limit k R t dt s).evals = s.evals ++ (stageTimes t dt k).zip us ∧
      L (updateWith limit k R t dt s).sol = L s.sol +
        dt • (List.zipWith (fun (w : F) (e : F × V) => w • L (R e.1 e.2)) (weights k) ((stageTimes t dt k).zip us)).sum := by
  cases k
  · refine ⟨[s.sol], rfl, rfl, ?_⟩
    simp only [updateWith, eulerWith, put, nextSolution, Sys.residual, Sys.setTime, Sys.setSol, hl, map_add, map_smul,
      weights, stageTimes, List.zip_cons_cons, List.zip_nil_left, List.zipWith_cons_cons, List.zipWith_nil_left,
      List.sum_cons, List.sum_nil, one_smul, add_zero]
  · refine ⟨[s.sol, limit (s.sol + dt • R t s.sol)], rfl, ?_, ?_⟩
    · simp [updateWith, update2With, eulerWith, put, nextSolution, Sys.residual, Sys.setTime, Sys.setSol, stageTimes]
    · simp only [updateWith, update2With, eulerWith, put, nextSolution, Sys.residual, Sys.setTime, Sys.setSol, hl,
        map_add, map_smul, weights, stageTimes, List.zip_cons_cons, List.zip_nil_left, List.zipWith_cons_cons,
        List.zipWith_nil_left, List.sum_cons, List.sum_nil]
      match_scalars <;> field_simp <;> ring
  · refine ⟨[s.sol, limit (s.sol + dt • R t s.sol), limit ((4 : F)⁻¹ • ((3 : F) • s.sol +
      (limit (s.sol + dt • R t s.sol) + dt • R (t + dt) (limit (s.sol + dt • R t s.sol)))))], rfl, ?_, ?_⟩
    · simp [updateWith, update3With, eulerWith, put, nextSolution, Sys.residual, Sys.setTime, Sys.setSol, stageTimes]
    · simp only [updateWith, update3With, eulerWith, put, nextSolution, Sys.residual, Sys.setTime, Sys.setSol, hl,
        map_add, map_smul, weights, stageTimes, List.zip_cons_cons, List.zip_nil_left, List.zipWith_cons_cons,
        List.zipWith_nil_left, List.sum_cons, List.sum_nil]
      match_scalars <;> field_simp <;> ring

/-- **C81** The same over a run. -/
theorem run_balance [CharZero F] (L : V →ₗ[F] W) {limit : V → V} (hl : ∀ u, L (limit u) = L u) (k : Stepper)
    (R : F → V → V) (t dt : F) (N : Nat) (s : Sys F V) :
    ∃ log : List (F × V), (runWith limit k R t dt N s).evals = s.evals ++ log ∧
      log.map Prod.fst = (List.range N).flatMap (fun (i : Nat) => stageTimes (t + dt * (i : F)) dt k) ∧
      L (runWith limit k R t dt N s).sol = L s.sol +
        dt • (List.zipWith (fun (w : F) (e : F × V) => w • L (R e.1 e.2)) ((List.replicate N (weights k)).flatten) log).sum := by
  induction N with
  | zero => exact ⟨[], by simp [runWith], rfl, by simp [runWith]⟩
  | succ N ih =>
    obtain ⟨log, h1, h2, h3⟩ := ih
    obtain ⟨us, g0, g1, g2⟩ := step_balance L hl k R (t + dt * (N : F)) dt (runWith limit k R t dt N s)
    have hlen : (stageTimes (t + dt * (N : F)) dt k).length = us.length := by
      rw [g0]; cases k <;> rfl
    refine ⟨log ++ (stageTimes (t + dt * (N : F)) dt k).zip us, ?_, ?_, ?_⟩
    · show (updateWith limit k R (t + dt * (N : F)) dt (runWith limit k R t dt N s)).evals = _
      rw [g1, h1, List.append_assoc]
    · rw [List.map_append, h2, List.range_succ, List.flatMap_append, List.flatMap_singleton,
        List.map_fst_zip (le_of_eq hlen)]
    · have hw : ((List.replicate N (weights (F := F) k)).flatten).length = log.length := by
        have : log.length = ((List.range N).flatMap fun (i : Nat) => stageTimes (t + dt * (i : F)) dt k).length := by
          rw [← h2, List.length_map]
        rw [this, List.length_flatten, List.map_replicate, List.sum_replicate, List.length_flatMap]
        have e : (fun (i : Nat) => (stageTimes (t + dt * (i : F)) dt k).length) =
            fun _ => (weights (F := F) k).length := by
          funext i; cases k <;> rfl
        rw [e, List.map_const', List.sum_replicate, List.length_range]
      rw [List.replicate_succ', List.flatten_append, List.flatten_singleton, List.zipWith_append hw, List.sum_append,
        smul_add, ← add_assoc, ← h3]
      exact g2

end

variable {Pt : Type} {K n : Nat}

/-- The integral is linear. -/
noncomputable def inventoryₗ {N : Nat} (m : Fin N → Fin (n + 1) → ℝ) (r : Fin K) :
    (Fin N → Coeff K n) →ₗ[ℝ] ℝ where
  toFun u := inventory m u r
  map_add' u v := by
    simp only [inventory, Pi.add_apply, mul_add, Finset.sum_add_distrib]
  map_smul' a u := by
    simp only [inventory, Pi.smul_apply, smul_eq_mul, RingHom.id_apply, Finset.mul_sum]
    exact Finset.sum_congr rfl fun p _ => Finset.sum_congr rfl fun i _ => by ring

/-- The integral of the residual is minus the flux through the boundary. -/
theorem rates_balance (g : Grid Pt K n) (c : Conditions Pt K) (t : ℝ) (u : Fin g.count → Coeff K n)
    (hj : ∀ job ∈ jobs c t, g.boundary job.1 ≠ none) {m : Fin g.count → Fin (n + 1) → ℝ} (hm : HasUnit (g.part u) m)
    (r : Fin K) : inventory m (g.rates c t u) r = -outflow Cell.value (g.part u) c t r := by
  obtain ⟨res, hres⟩ := (general_defined (g.part u) c t (decide (0 < n))).2 hj
  have hres : generalResidual (g.part u) c t = some res := hres
  have := general_conservative [⟨g.part u, c, m, res⟩] t (by simpa using hres) (by simpa using hm)
    ⟨[], by simp [Spec.Residual.sides, Grid.part], nofun⟩ r
  simp only [total, totalOutflow, List.map_cons, List.map_nil, List.sum_cons, List.sum_nil, add_zero] at this
  rw [← this]
  unfold inventory integral Grid.rates Parallel.rates
  rw [hres]
  rfl

/-- **C81** On every mesh, with every stepper, any number of steps and any limiter that keeps the integral: the integral
of the solution at the end of a run is that at the beginning, less `dt` times the weighted sum of the fluxes through
the boundary, at the times and in the states of the stages. -/
theorem inventory_run (g : Grid Pt K n) (c : Conditions Pt K) {m : Fin g.count → Fin (n + 1) → ℝ}
    (hj : ∀ t, ∀ job ∈ jobs c t, g.boundary job.1 ≠ none) (hm : ∀ u, HasUnit (g.part u) m)
    {limit : (Fin g.count → Coeff K n) → Fin g.count → Coeff K n} (r : Fin K)
    (hl : ∀ u, inventory m (limit u) r = inventory m u r) (k : Stepper) (t dt : ℝ) (N : Nat)
    (s : Sys ℝ (Fin g.count → Coeff K n)) :
    ∃ log : List (ℝ × (Fin g.count → Coeff K n)), (runWith limit k (g.rates c) t dt N s).evals = s.evals ++ log ∧
      log.map Prod.fst = (List.range N).flatMap (fun (i : Nat) => stageTimes (t + dt * (i : ℝ)) dt k) ∧
      inventory m (runWith limit k (g.rates c) t dt N s).sol r = inventory m s.sol r -
        dt * (List.zipWith (fun w (e : ℝ × (Fin g.count → Coeff K n)) =>
          w * outflow Cell.value (g.part e.2) c e.1 r) ((List.replicate N (weights k)).flatten) log).sum := by
  obtain ⟨log, h1, h2, h3⟩ := run_balance (inventoryₗ m r) (limit := limit) hl k (g.rates c) t dt N s
  refine ⟨log, h1, h2, ?_⟩
  have e : (fun (w : ℝ) (e : ℝ × (Fin g.count → Coeff K n)) => w • inventoryₗ m r (g.rates c e.1 e.2)) =
      fun w e => -(w * outflow Cell.value (g.part e.2) c e.1 r) := by
    funext w e
    have := rates_balance g c e.1 e.2 (hj e.1) (hm e.2) r
    show w * inventory m (g.rates c e.1 e.2) r = _
    rw [this, mul_neg]
  have neg : ∀ (ws : List ℝ) (log : List (ℝ × (Fin g.count → Coeff K n))),
      (List.zipWith (fun w (e : ℝ × (Fin g.count → Coeff K n)) => -(w * outflow Cell.value (g.part e.2) c e.1 r))
        ws log).sum = -(List.zipWith (fun w (e : ℝ × (Fin g.count → Coeff K n)) =>
          w * outflow Cell.value (g.part e.2) c e.1 r) ws log).sum := by
    intro ws
    induction ws with
    | nil => simp
    | cons w ws ih =>
      intro log
      cases log with
      | nil => simp
      | cons e log => simp only [List.zipWith_cons_cons, List.sum_cons, ih, neg_add]
  rw [e, neg] at h3
  have h3 : inventory m (runWith limit k (g.rates c) t dt N s).sol r = inventory m s.sol r + dt * _ := h3
  rw [h3]
  ring

/-- **C81** Nothing is lost or made in a closed vessel: if no flux goes through the boundary in any state that the run
goes through, the integral stays as it was. -/
theorem inventory_closed (g : Grid Pt K n) (c : Conditions Pt K) {m : Fin g.count → Fin (n + 1) → ℝ}
    (hj : ∀ t, ∀ job ∈ jobs c t, g.boundary job.1 ≠ none) (hm : ∀ u, HasUnit (g.part u) m)
    {limit : (Fin g.count → Coeff K n) → Fin g.count → Coeff K n} (r : Fin K)
    (hl : ∀ u, inventory m (limit u) r = inventory m u r) (k : Stepper) (t dt : ℝ) (N : Nat)
    (s : Sys ℝ (Fin g.count → Coeff K n))
    (hout : ∀ e ∈ (runWith limit k (g.rates c) t dt N s).evals, outflow Cell.value (g.part e.2) c e.1 r = 0) :
    inventory m (runWith limit k (g.rates c) t dt N s).sol r = inventory m s.sol r := by
  obtain ⟨log, h1, -, h3⟩ := inventory_run g c hj hm r hl k t dt N s
  have zero : ∀ (ws : List ℝ) (log : List (ℝ × (Fin g.count → Coeff K n))),
      (∀ e ∈ log, outflow Cell.value (g.part e.2) c e.1 r = 0) →
      (List.zipWith (fun w (e : ℝ × (Fin g.count → Coeff K n)) =>
          w * outflow Cell.value (g.part e.2) c e.1 r) ws log).sum = 0 := by
    intro ws
    induction ws with
    | nil => simp
    | cons w ws ih =>
      intro log h
      cases log with
      | nil => simp
      | cons e log =>
        simp only [List.zipWith_cons_cons, List.sum_cons, h e (List.mem_cons_self), mul_zero, zero_add]
        exact ih log fun e he => h e (List.mem_cons_of_mem _ he)
  rw [h3, zero _ _ fun e he => hout e (by rw [h1]; exact List.mem_append_right _ he), mul_zero, sub_zero]

/-! ### Limiters -/

/-- `Part::Reconstruct` on one process. -/
def limitAll {N : Nat} (degrees : Nat) (trouble : Nat → (Nat → Coeff K n) → Bool)
    (lim : Nat → (Nat → Coeff K n) → Coeff K n) (inner inter : List Nat) (u : Fin N → Coeff K n) : Fin N → Coeff K n :=
  let s : Nat → Coeff K n := fun c => if h : c < N then u ⟨c, h⟩ else fun _ _ => 0
  fun p => Reconstruct.reconstruct degrees trouble lim inner inter [] s s p.val

/-- With orthonormal bases, `Reconstruct` keeps the integral if the limiter keeps averages (C43), whichever cells it is
applied to. -/
theorem limitAll_keeps {N : Nat} (b : Fin N → Basis Pt n) {degrees : Nat} {trouble : Nat → (Nat → Coeff K n) → Bool}
    {lim : Nat → (Nat → Coeff K n) → Coeff K n} {nbr : Nat → List Nat} {inner inter : List Nat}
    (hg : Spec.Reconstruct.Groups nbr inner inter []) (hall : ∀ p, p < N → p ∈ inner ∨ p ∈ inter) (r : Fin K)
    (hk : ∀ c s, (lim c s) r 0 = (s c) r 0) (u : Fin N → Coeff K n) :
    inventory (orthoUnit b) (limitAll degrees trouble lim inner inter u) r = inventory (orthoUnit b) u r := by
  unfold inventory
  refine Finset.sum_congr rfl fun p _ => ?_
  simp only [orthoUnit, ite_mul, zero_mul, Finset.sum_ite_eq', Finset.mem_univ, if_true]
  congr 1
  have := Reconstruct.reconstruct_keeps (fun c : Coeff K n => c r 0) (degrees := degrees) (trouble := trouble) hk hg
    (fun c => if h : c < N then u ⟨c, h⟩ else fun _ _ => 0) (fun c => if h : c < N then u ⟨c, h⟩ else fun _ _ => 0)
    p.val (hall _ p.2)
  unfold limitAll
  refine this.trans ?_
  simp

/-- The limiter `weno::Lazy` satisfies the hypothesis wherever it succeeds. -/
theorem lazy_first {b : Basis Pt n} (s : Sound b) {t : Weno.TaylorOps Pt n} {w0 eps : ℝ} {own new : Coeff K n}
    {adj : List (Pt → Value K)} (h : Weno.lazyLimit t b w0 eps own adj = some new) (r : Fin K) : new r 0 = own r 0 := by
  have := congrFun (Weno.lazy_average s h) r
  unfold average at this
  exact mul_right_cancel₀ s.ne this

/-- So does `weno::Eigen`. -/
theorem eigen_first {b : Basis Pt n} (s : Sound b) {t : Weno.TaylorOps Pt n} {w0 eps : ℝ} {own new : Coeff K n}
    {adj : List (Pt → Value K)} {faces : List (Weno.Face K)}
    (hRL : ∀ f ∈ faces, f.right (average b own) * f.left (average b own) = 1)
    (h : Weno.eigenLimit t b w0 eps own adj faces = some new) (r : Fin K) : new r 0 = own r 0 := by
  have := congrFun (Weno.eigen_average s hRL h) r
  unfold average at this
  exact mul_right_cancel₀ s.ne this

/-! ### An example -/

theorem row_unit (u : Fin 2 → Coeff 1 0) : HasUnit (row.part u) (fun _ _ => 1) where
  one p x := by
    show ∑ i : Fin 1, 1 * (1 : ℝ) = 1
    simp
  grad p v hv := by cases hv

/-- The values of the two cells. -/
noncomputable def rowStart (a b : ℝ) : Fin row.count → Coeff 1 0 := fun p _ _ => (![a, b] : Fin 2 → ℝ) p

/-- Advection through two cells: 11 comes in with speed 1 through a face of area 2. -/
example (a b t dt : ℝ) :
    inventory (fun _ _ => 1) (runWith id .rk1 (row.rates rowConditions) t dt 1 ⟨0, rowStart a b, []⟩).sol (0 : Fin 1) =
      a + b - dt * outflow Cell.value (row.part (rowStart a b)) rowConditions t 0 := by
  obtain ⟨log, h1, h2, h3⟩ := inventory_run row rowConditions (m := fun _ _ => 1) (limit := id)
    (fun t job hj => (row_same t (rowStart 0 0)).2 job hj |>.1) row_unit 0 (fun _ => rfl) .rk1 t dt 1
    ⟨0, rowStart a b, []⟩
  have hlog : log = [(t, rowStart a b)] := by
    simpa [runWith, updateWith, eulerWith, put, nextSolution, Sys.residual, Sys.setTime, Sys.setSol] using h1.symm
  rw [h3, hlog]
  have : inventory (fun _ _ => 1) (rowStart a b) 0 = a + b := by
    show ∑ p : Fin 2, ∑ i : Fin 1, 1 * (![a, b] : Fin 2 → ℝ) p = a + b
    simp [Fin.sum_univ_two]
  simp only [this]
  simp [weights]

end MiniCFD.Driver
