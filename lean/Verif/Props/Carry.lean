import Verif.Lemmas.Carry
import Verif.Props.Gas
import Verif.Props.Energy
import Verif.Props.Exact
import Mathlib.Analysis.Calculus.Deriv.Add
import Mathlib.Analysis.Calculus.Deriv.Mul
import Mathlib.Analysis.Calculus.Deriv.Pi

/-!
# C141: density waves are carried exactly

With polynomials of degree one or more, on any mesh, in any number of steps of `RungeKutta<1>`, `<2>` or `<3>` of any
length: a gas of uniform velocity and pressure, whose density is linear along the flow, is at the end what the Euler
equations make of it, without any error of discretisation.
-/

namespace MiniCFD.Carry

open MiniCFD.Gas MiniCFD.Residual MiniCFD.Projection MiniCFD.Ortho MiniCFD.Euler MiniCFD.Spec.Euler MiniCFD.Spec.Turn
open MiniCFD.Spec.Carry MiniCFD.Parallel MiniCFD.RK

variable {Pt : Type} {n : Nat} {m : Mesh Pt n} {c : Conditions Pt 5} {γ : ℝ}

/-- What a part of the rates adds to the gas. -/
theorem gas_line {v : Fin 3 → ℝ} {P : ℝ} {ρ s : Pt → ℝ} {u : Fin m.count → Coeff 5 n}
    (hu : ∀ p x, gas m p (u p) x = carried γ v P (ρ x)) {S : Fin m.count → Fin (n + 1) → ℝ}
    (hS : ∀ p x, profile m p (S p) x = s x) (a : ℝ) (p : Fin m.count) (x : Pt) :
    gas m p ((u + a • fun p r i => -(part v r * S p i)) p) x = carried γ v P (ρ x - a * s x) := by
  have h : ∀ r, ∑ i, (u + a • fun p r i => -(part v r * S p i)) p r i * basisValues (m.basis p) x i =
      (∑ i, u p r i * basisValues (m.basis p) x i) - a * part v r * s x := by
    intro r
    rw [← hS p x, profile, Finset.mul_sum, ← Finset.sum_sub_distrib]
    refine Finset.sum_congr rfl fun i _ => ?_
    simp only [Pi.add_apply, Pi.smul_apply, smul_eq_mul]
    ring
  have hv : ∀ r, ∑ i, u p r i * basisValues (m.basis p) x i = val (carried γ v P (ρ x)) r := by
    intro r
    rw [← hu p x, gas, Turn.val_tup]
  unfold gas
  simp only [h, hv]
  refine Positive.Tup.ext' ?_ (fun i => ?_) ?_
  · show ρ x - a * 1 * s x = _
    simp [carried]
  · fin_cases i
    · show ρ x * v 0 - a * v 0 * s x = (ρ x - a * s x) * v 0
      ring
    · show ρ x * v 1 - a * v 1 * s x = (ρ x - a * s x) * v 1
      ring
    · show ρ x * v 2 - a * v 2 * s x = (ρ x - a * s x) * v 2
      ring
  · show P / (γ - 1) + ρ x * (v 0 ^ 2 + v 1 ^ 2 + v 2 ^ 2) / 2 - a * ((v 0 ^ 2 + v 1 ^ 2 + v 2 ^ 2) / 2) * s x =
      P / (γ - 1) + (ρ x - a * s x) * (v 0 ^ 2 + v 1 ^ 2 + v 2 ^ 2) / 2
    ring

/-- The derivative of the wave at a later time. -/
theorem derivative_later {v : Fin 3 → ℝ} {ρ s : Pt → ℝ} (h : Derivative m v ρ s) (h' : Derivative m v s fun _ => 0)
    (a : ℝ) : Derivative m v (fun x => ρ x - a * s x) s := by
  obtain ⟨R, hR, hRs⟩ := h
  obtain ⟨S, hS, hSs⟩ := h'
  refine ⟨fun p i => R p i - a * S p i, fun p x => ?_, fun p xw hx => ?_⟩
  · show profile m p _ x = ρ x - a * s x
    rw [← hR p x, ← hS p x]
    unfold profile
    rw [Finset.mul_sum, ← Finset.sum_sub_distrib]
    exact Finset.sum_congr rfl fun i _ => by ring
  · have e : ∀ k, Spec.Carry.slope m p (fun i => R p i - a * S p i) xw.1 k =
        Spec.Carry.slope m p (R p) xw.1 k - a * Spec.Carry.slope m p (S p) xw.1 k := by
      intro k
      unfold Spec.Carry.slope
      rw [Finset.mul_sum, ← Finset.sum_sub_distrib]
      exact Finset.sum_congr rfl fun i _ => by ring
    have h1 := hRs p xw hx
    have h2 := hSs p xw hx
    simp only [e, Fin.sum_univ_three] at h1 h2 ⊢
    linear_combination h1 - a * h2

/-- **C141.** The rates of the wave are those of the solution, wherever in a cell. -/
theorem wave_rates (hγ : 1 < γ) (hr : Regular m c) (hs : Consistent m γ) {v : Fin 3 → ℝ} {P : ℝ} (hP : 0 < P)
    {ρ s : Pt → ℝ} (hd : Derivative m v ρ s) (hd' : Derivative m v s fun _ => 0)
    (hc : Fits m v c fun x t => carried γ v P (ρ x - t * s x)) (t : ℝ) {u : Fin m.count → Coeff 5 n}
    (hρ : ∀ x, Place m x → 0 < ρ x - t * s x)
    (hu : ∀ p x, gas m p (u p) x = carried γ v P (ρ x - t * s x)) (dt : ℝ) (p : Fin m.count) (x : Pt) :
    gas m p ((u + dt • m.rates γ c t u) p) x = carried γ v P (ρ x - (t + dt) * s x) := by
  obtain ⟨S, hS, hSs⟩ := id hd'
  have e : m.rates γ c t u = fun p r i => -(part v r * S p i) := by
    funext p r i
    exact rates_wave hγ hr hs hP hρ hu hc t (fun _ => rfl) hS (derivative_later hd ⟨S, hS, hSs⟩ t) p r i
  rw [e, gas_line hu hS dt p x]
  congr 1
  ring

/-- **C141.** So is what any number of steps makes of it. -/
theorem wave_runs (hγ : 1 < γ) (hr : Regular m c) (hs : Consistent m γ) {v : Fin 3 → ℝ} {P : ℝ} (hP : 0 < P)
    {ρ s : Pt → ℝ} (hd : Derivative m v ρ s) (hd' : Derivative m v s fun _ => 0)
    (hc : Fits m v c fun x t => carried γ v P (ρ x - t * s x)) (k : Stepper) (t dt : ℝ) (N : Nat)
    (σ : Sys ℝ (Fin m.count → Coeff 5 n)) (hu : ∀ p x, gas m p (σ.sol p) x = carried γ v P (ρ x - t * s x))
    (h0 : ∀ x, Place m x → 0 < ρ x - t * s x) (h1 : ∀ x, Place m x → 0 < ρ x - (t + dt * N) * s x) (p : Fin m.count)
    (x : Pt) :
    gas m p ((run k (m.rates γ c) t dt N σ).sol p) x = carried γ v P (ρ x - (t + dt * N) * s x) := by
  obtain ⟨S, hS, hSs⟩ := id hd'
  -- Between the first and the last instant the density is positive.
  have between : ∀ a : ℝ, 0 ≤ a → a ≤ 1 → ∀ x, Place m x → 0 < ρ x - (t + a * (dt * N)) * s x := by
    intro a ha ha' x hx
    have e : ρ x - (t + a * (dt * N)) * s x = (1 - a) * (ρ x - t * s x) + a * (ρ x - (t + dt * N) * s x) := by ring
    rw [e]
    rcases ha.eq_or_lt with rfl | ha
    · simpa using h0 x hx
    · exact add_pos_of_nonneg_of_pos (mul_nonneg (by linarith) (h0 x hx).le) (mul_pos ha (h1 x hx))
  have positive : ∀ b : ℝ, 0 ≤ b → b ≤ N → ∀ x, Place m x → 0 < ρ x - (t + dt * b) * s x := by
    intro b hb hb' x hx
    rcases Nat.eq_zero_or_pos N with hN | hN
    · have : b = 0 := le_antisymm (by rw [hN] at hb'; simpa using hb') hb
      rw [this]
      simpa using h0 x hx
    · have hN' : (0 : ℝ) < N := by exact_mod_cast hN
      have := between (b / N) (div_nonneg hb hN'.le) ((div_le_one hN').2 hb') x hx
      have e : b / N * (dt * N) = dt * b := by field_simp
      rwa [e] at this
  clear h1 between
  have main : ∀ M : Nat, M ≤ N → ∀ p x, gas m p ((run k (m.rates γ c) t dt M σ).sol p) x =
      carried γ v P (ρ x - (t + dt * M) * s x) := by
    intro M
    induction M with
    | zero =>
      intro _ p x
      simpa [run] using hu p x
    | succ M ih =>
      intro hM p x
      have ihM := ih (by omega)
      have hMN : (M : ℝ) + 1 ≤ N := by exact_mod_cast hM
      have hM0 : (0 : ℝ) ≤ M := M.cast_nonneg
      have rate : ∀ a : ℝ, 0 ≤ a → a ≤ 1 → m.rates γ c (t + dt * M + a * dt)
          ((run k (m.rates γ c) t dt M σ).sol + (a * dt) • fun p r i => -(part v r * S p i)) =
          fun p r i => -(part v r * S p i) := by
        intro a ha ha'
        funext p r i
        have e : ∀ x, ρ x - (t + dt * M) * s x - a * dt * s x = ρ x - (t + dt * M + a * dt) * s x := fun x => by ring
        have hg := gas_line ihM hS (a * dt)
        simp only [e] at hg
        refine rates_wave hγ hr hs hP (fun x hx => ?_) hg hc _ (fun _ => rfl) hS
          (derivative_later hd ⟨S, hS, hSs⟩ _) p r i
        have := positive (M + a) (by linarith) (by linarith) x hx
        rwa [mul_add, mul_comm dt a, ← add_assoc] at this
      have r0 := rate 0 le_rfl zero_le_one
      have r1 := rate 1 zero_le_one le_rfl
      have r2 := rate (1 / 2) (by norm_num) (by norm_num)
      rw [zero_mul, add_zero, zero_smul, add_zero] at r0
      rw [one_mul] at r1
      rw [show (1 / 2 : ℝ) * dt = dt / 2 by ring] at r2
      have step := update_line k (m.rates γ c) (t + dt * M) dt (run k (m.rates γ c) t dt M σ) _ r0 r1 r2
      show gas m p ((RK.update k (m.rates γ c) (t + dt * M) dt (run k (m.rates γ c) t dt M σ)).sol p) x = _
      rw [step, gas_line ihM hS dt p x]
      congr 1
      push_cast
      ring
  exact main N le_rfl p x

/-! ### The solvers of the code -/

/-- **C141.** Meshes with HLLC, AUSM and exact solvers are such meshes. -/
theorem hllc_carries (hγ : 1 < γ) (hr : Regular m c)
    (h : ∀ f ∈ m.faces, ∀ q ∈ f.2.2, q.solver = upwind γ (hllc γ) q.frame) : Consistent m γ := by
  intro f hf q hq s ha
  rw [h f hf q hq]
  exact hllc_consistent hγ (hr.frames f hf q hq) s ha

theorem ausm_carries (hγ : 1 < γ) (hr : Regular m c)
    (h : ∀ f ∈ m.faces, ∀ q ∈ f.2.2, q.solver = upwind γ (ausm γ) q.frame) : Consistent m γ := by
  intro f hf q hq s ha
  rw [h f hf q hq]
  exact ausm_consistent hγ (hr.frames f hf q hq) s ha

theorem exact_carries (hγ : 1 < γ) (hr : Regular m c)
    (h : ∀ f ∈ m.faces, ∀ q ∈ f.2.2, ∀ s, Admissible γ s →
      ∃ fuel a u, Exact.rotatedCall fuel γ q.frame a s s = some (q.solver s s, u)) : Consistent m γ := by
  intro f hf q hq s ha
  obtain ⟨fuel, a, u, e⟩ := h f hf q hq s ha
  have := Exact.exact_consistent hγ (hr.frames f hf q hq) s ha fuel a
  rw [e] at this
  exact Option.some.inj this

/-! ### The wave is a solution -/

theorem carried_through (hγ : 1 < γ) (v : Fin 3 → ℝ) (P : ℝ) {ρ : ℝ} (hρ : 0 < ρ) (nu : Fin 3 → ℝ) (r : Fin 5) :
    val (flux γ nu (carried γ v P ρ)) r = through γ v P ρ r nu := by
  have h : γ - 1 ≠ 0 := by linarith
  have hv : velAlong nu (carried γ v P ρ) = v 0 * nu 0 + v 1 * nu 1 + v 2 * nu 2 := by
    unfold velAlong
    rw [three]
    have e : ∀ k : Fin 3, vel (carried γ v P ρ) k = v k := fun k => mul_div_cancel_left₀ _ hρ.ne'
    simp only [e]
  unfold flux through
  rw [hv, carried_pressure hγ v P hρ, Fin.sum_univ_three]
  fin_cases r
  · simp [val, part, fixed, carried]
    ring
  · simp [val, part, fixed, carried]
    ring
  · simp [val, part, fixed, carried]
    ring
  · simp [val, part, fixed, carried]
    ring
  · simp [val, part, fixed, carried]
    field_simp
    ring

/-- **C141.** The wave with the density `b + g · x` at first: at time `t` that is `b + g · (x - t v)`.  The rate of change
of each component and the divergence of its flux add up to zero, as the Euler equations say. -/
theorem wave_solves (hγ : 1 < γ) (v g : Fin 3 → ℝ) (b P : ℝ) (x : Fin 3 → ℝ) (t : ℝ)
    (hρ : 0 < b + ∑ j, g j * (x j - t * v j)) (r : Fin 5) :
    ∃ (rate : ℝ) (slopes : Fin 3 → ℝ),
      HasDerivAt (fun τ => val (carried γ v P (b + ∑ j, g j * (x j - τ * v j))) r) rate t ∧
      (∀ k, HasDerivAt (fun y => val (flux γ (Pi.single k 1)
        (carried γ v P (b + ∑ j, g j * (Function.update x k y j - t * v j)))) r) (slopes k) (x k)) ∧
      rate + ∑ k, slopes k = 0 := by
  have hval : ∀ ρ, val (carried γ v P ρ) r = part v r * ρ + val (carried γ v P 0) r := by
    intro ρ
    fin_cases r <;> simp [val, carried, part] <;> ring
  refine ⟨part v r * -(∑ j, g j * v j), fun k => part v r * (v k * g k), ?_, fun k => ?_, ?_⟩
  · have hfun : (fun τ => val (carried γ v P (b + ∑ j, g j * (x j - τ * v j))) r) = fun τ => part v r *
        (b + (g 0 * (x 0 - τ * v 0) + g 1 * (x 1 - τ * v 1) + g 2 * (x 2 - τ * v 2))) + val (carried γ v P 0) r := by
      funext τ
      rw [hval, Fin.sum_univ_three]
    rw [hfun, Fin.sum_univ_three]
    have h : ∀ j, HasDerivAt (fun τ : ℝ => g j * (x j - τ * v j)) (-(g j * v j)) t := by
      intro j
      have := (((hasDerivAt_id t).mul_const (v j)).const_sub (x j)).const_mul (g j)
      simpa using this
    have := (((((h 0).add (h 1)).add (h 2)).const_add b).const_mul (part v r)).add_const (val (carried γ v P 0) r)
    refine this.congr_deriv ?_
    ring
  · have hd : HasDerivAt (fun y => b + ∑ j, g j * (Function.update x k y j - t * v j)) (g k) (x k) := by
      have h : ∀ j, HasDerivAt (fun y : ℝ => g j * (Function.update x k y j - t * v j)) (if j = k then g j else 0) (x k) := by
        intro j
        by_cases hj : j = k
        · subst hj
          have := ((hasDerivAt_id (x j)).sub_const (t * v j)).const_mul (g j)
          simpa using this
        · simpa [Function.update_of_ne hj, hj] using hasDerivAt_const (x k) (g j * (x j - t * v j))
      have := (((h 0).add (h 1)).add (h 2)).const_add b
      simp only [Fin.sum_univ_three]
      refine this.congr_deriv ?_
      fin_cases k <;> simp
    have hx : b + ∑ j, g j * (Function.update x k (x k) j - t * v j) = b + ∑ j, g j * (x j - t * v j) := by
      rw [Function.update_eq_self]
    have hpos : ∀ᶠ y in nhds (x k), 0 < b + ∑ j, g j * (Function.update x k y j - t * v j) := by
      refine hd.continuousAt.eventually (lt_mem_nhds ?_)
      show 0 < b + ∑ j, g j * (Function.update x k (x k) j - t * v j)
      rw [hx]
      exact hρ
    have hf := (hd.const_mul (part v r * v k)).add_const (fixed γ v P k r)
    refine HasDerivAt.congr_of_eventuallyEq (hf.congr_deriv (by ring)) ?_
    filter_upwards [hpos] with y hy
    rw [carried_through hγ v P hy, through]
    simp only [Fin.sum_univ_three]
    fin_cases k <;> simp <;> ring
  · simp only [Fin.sum_univ_three]
    ring

/-! ### The hypotheses are met: the intervals from 0 to 1 and from 1 to 2, with linear functions -/

variable {f : Frame 2 → Tup 2 → Tup 2 → Tup 2}

noncomputable def line (f : Frame 2 → Tup 2 → Tup 2 → Tup 2) : Mesh ℝ 1 where
  count := 2
  basis p := Energy.interval p.val
  gradValue _ coeff _ k := if k = 0 then coeff 1 else 0
  nodes _ _ := 0
  inter _ := false
  faces := [(0, 1, [site f 1 east])]
  boundary name :=
    if name = "in" then some [(0, [site f 0 west])]
    else if name = "out" then some [(1, [site f 2 east])]
    else if name = "wall" then some [(1, [site f (3 / 2) north]), (1, [site f (3 / 2) south])] else none

/-- Flow at the speed two along the `x`-axis, which becomes thinner by two in the unit of time. -/
def speed : Fin 3 → ℝ := ![2, 0, 0]
def thick (x : ℝ) : ℝ := 5 + x

/-- A wall, an inlet and an outlet. -/
noncomputable def stream (γ : ℝ) : Conditions ℝ 5 where
  solidWall := ["wall"]
  supersonicInlet := [("in", fun x t => val (carried γ speed 1 (thick x - t * 2)))]
  smart := [("out", fun x t => val (carried γ speed 1 (thick x - t * 2)))]

theorem line_values (p : Fin 2) (x : ℝ) (i : Fin (1 + 1)) :
    basisValues ((line f).basis p) x i = if i = 0 then 1 else 2 * √3 * (x - p.val - 1 / 2) :=
  Energy.two_values p x i

theorem line_gradient (p : Fin 2) (x : ℝ) (i : Fin (1 + 1)) (k : Fin 3) :
    gradient (line f) p x i k = if k = 0 then (if i = 0 then 0 else 2 * √3) else 0 := by
  show (if k = 0 then (Energy.interval p.val).linear.coeff i 1 else 0) = _
  split_ifs with h1 h2
  · subst h2
    simp [Energy.interval]
  · have : i = 1 := by
      fin_cases i
      · exact absurd rfl h2
      · rfl
    subst this
    simp [Energy.interval]
  · rfl

theorem line_rim {name : String} {faces : List (Fin 2 × List (Site ℝ))} (h : (line f).boundary name = some faces) :
    ∀ g ∈ faces, ∀ q ∈ g.2, q = site f 0 west ∨ q = site f 2 east ∨ q = site f (3 / 2) north ∨
      q = site f (3 / 2) south := by
  intro g hf q hq
  simp only [line] at h
  split_ifs at h
  · obtain rfl := Option.some.inj h
    obtain rfl := List.eq_of_mem_singleton hf
    exact .inl (List.eq_of_mem_singleton hq)
  · obtain rfl := Option.some.inj h
    obtain rfl := List.eq_of_mem_singleton hf
    exact .inr (.inl (List.eq_of_mem_singleton hq))
  · obtain rfl := Option.some.inj h
    simp only [List.mem_cons, List.not_mem_nil, or_false] at hf
    rcases hf with rfl | rfl
    · exact .inr (.inr (.inl (List.eq_of_mem_singleton hq)))
    · exact .inr (.inr (.inr (List.eq_of_mem_singleton hq)))

/-- The surface of a cell is its two ends. -/
theorem line_surface (p : Fin 2) (k : Fin 3) (φ : ℝ → ℝ) :
    surface (line f) (stream γ) p (fun q => q.frame 0 k * φ q.coord) =
      if k = 0 then φ (p.val + 1) - φ p.val else 0 := by
  match p with
  | ⟨0, _⟩ =>
    fin_cases k <;> simp [surface, line, names, stream, rim, face, site, east, west]
    ring
  | ⟨1, _⟩ =>
    fin_cases k <;> simp [surface, line, names, stream, rim, face, site, east, north, south]
    norm_num
    ring

theorem line_regular : Regular (line f) (stream γ) := by
  have h3 : √3 ^ 2 = 3 := Real.sq_sqrt (by norm_num)
  have hp : √3 ≠ 0 := by positivity
  obtain ⟨o1, o2, o3, o4⟩ := orthonormal_all
  have rule : ∀ p : Fin 2, ((line f).basis p).rule = [(p.val + 1 / 2 - 1 / (2 * √3), 1 / 2),
    (p.val + 1 / 2 + 1 / (2 * √3), 1 / 2)] := fun _ => rfl
  refine ⟨?_, ?_, ?_, ?_, ?_, ?_, ?_⟩
  · intro p i j
    exact (Energy.two_regular (fun _ => 0)).orth p i j
  · intro (p : Fin 2) i k
    have hs := line_surface (f := f) (γ := γ) p k fun x => basisValues ((line f).basis p) x i
    refine Eq.trans ?_ hs.symm
    rw [integrate_eq]
    simp only [line_values, line_gradient]
    refine (congrArg (fun l => (List.map _ l).sum) (rule p)).trans ?_
    simp only [List.map_cons, List.map_nil, List.sum_cons, List.sum_nil]
    split_ifs <;> ring
  · intro (p : Fin 2) i j k
    have hs := line_surface (f := f) (γ := γ) p k fun x =>
      basisValues ((line f).basis p) x j * basisValues ((line f).basis p) x i
    refine Eq.trans ?_ hs.symm
    rw [integrate_eq]
    simp only [line_values, line_gradient]
    refine (congrArg (fun l => (List.map _ l).sum) (rule p)).trans ?_
    simp only [List.map_cons, List.map_nil, List.sum_cons, List.sum_nil]
    split_ifs <;> ring
  · intro g hf q hq
    obtain rfl := List.eq_of_mem_singleton hf
    obtain rfl := List.eq_of_mem_singleton hq
    exact o1
  · intro name faces h g hf q hq
    rcases line_rim h g hf q hq with rfl | rfl | rfl | rfl <;> assumption
  · intro name h
    have h' : name = "wall" ∨ name = "in" ∨ name = "out" := by simpa [names, stream] using h
    rcases h' with rfl | rfl | rfl <;> simp [line]
  · intro h
    exact absurd h (by norm_num)

theorem line_profile (p : Fin 2) (w : Fin (1 + 1) → ℝ) (x : ℝ) :
    profile (line f) p w x = w 0 + w 1 * (2 * √3 * (x - p.val - 1 / 2)) := Energy.two_sol p w x

theorem line_slope (p : Fin 2) (w : Fin (1 + 1) → ℝ) (x : ℝ) (k : Fin 3) :
    Spec.Carry.slope (line f) p w x k = if k = 0 then w 1 * (2 * √3) else 0 := Energy.two_slope p w x k

theorem line_thick : Derivative (line f) speed thick fun _ => 2 := by
  have hp : √3 ≠ 0 := by positivity
  refine ⟨fun p i => if i = 0 then 11 / 2 + p.val else 1 / (2 * √3), fun p x => ?_, fun p xw _ => ?_⟩
  · refine (line_profile p _ x).trans ?_
    simp [thick]
    field_simp
    ring
  · refine (Finset.sum_congr rfl fun k _ => congrArg (speed k * ·) (line_slope p _ xw.1 k)).trans ?_
    simp [Fin.sum_univ_three, speed]
    field_simp

theorem line_thin : Derivative (line f) speed (fun _ => 2) fun _ => 0 := by
  refine ⟨fun p i => if i = 0 then 2 else 0, fun p x => ?_, fun p xw _ => ?_⟩
  · refine (line_profile p _ x).trans ?_
    simp
  · refine (Finset.sum_congr rfl fun k _ => congrArg (speed k * ·) (line_slope p _ xw.1 k)).trans ?_
    simp

theorem line_fits : Fits (line f) speed (stream γ) fun x t => carried γ speed 1 (thick x - t * 2) := by
  refine ⟨?_, ?_, ?_, ?_, ?_⟩
  · intro name h faces hb g hf q hq
    obtain rfl := List.eq_of_mem_singleton h
    simp only [line] at hb
    obtain rfl := Option.some.inj hb
    rcases List.mem_cons.1 hf with rfl | hf
    · obtain rfl := List.eq_of_mem_singleton hq
      show ∑ k, speed k * north 0 k = 0
      simp [Fin.sum_univ_three, speed, north]
    · obtain rfl := List.eq_of_mem_singleton hf
      obtain rfl := List.eq_of_mem_singleton hq
      show ∑ k, speed k * south 0 k = 0
      simp [Fin.sum_univ_three, speed, south]
  · intro nf h faces _ g _ q _ t
    obtain rfl := List.eq_of_mem_singleton h
    exact tup_val _
  · intro nf h
    simp [stream] at h
  · intro nf h
    simp [stream] at h
  · intro nf h faces _ g _ q _ t
    obtain rfl := List.eq_of_mem_singleton h
    exact tup_val _

theorem line_places {x : ℝ} (h : Place (line f) x) : 0 ≤ x := by
  have hp : (1 : ℝ) ≤ √3 := by rw [Real.one_le_sqrt]; norm_num
  have h0 : 1 / (2 * √3) ≤ 1 / 2 := one_div_le_one_div_of_le (by norm_num) (by linarith)
  have h1 : (0 : ℝ) ≤ 1 / (2 * √3) := by positivity
  cases h with
  | @cell p xw hx =>
    have hx' : xw ∈ [((p.val : ℝ) + 1 / 2 - 1 / (2 * √3), (1 / 2 : ℝ)), ((p.val : ℝ) + 1 / 2 + 1 / (2 * √3), 1 / 2)] := hx
    have hv : (0 : ℝ) ≤ p.val := Nat.cast_nonneg _
    simp only [List.mem_cons, List.not_mem_nil, or_false] at hx'
    rcases hx' with rfl | rfl
    · show 0 ≤ (p.val : ℝ) + 1 / 2 - 1 / (2 * √3)
      linarith
    · show 0 ≤ (p.val : ℝ) + 1 / 2 + 1 / (2 * √3)
      linarith
  | @face g q hf hq =>
    obtain rfl := List.eq_of_mem_singleton hf
    obtain rfl := List.eq_of_mem_singleton hq
    exact zero_le_one
  | @rim name faces g q hb hf hq =>
    rcases line_rim hb g hf q hq with rfl | rfl | rfl | rfl <;> norm_num [site]

/-- There are such states. -/
theorem line_start (γ a : ℝ) : ∃ u : Fin 2 → Coeff 5 1,
    ∀ p x, gas (line f) p (u p) x = carried γ speed 1 (thick x - a * 2) := by
  obtain ⟨R, hR, -⟩ := derivative_later (line_thick (f := f)) line_thin a
  refine ⟨(fun _ r i => if i = 0 then val (carried γ speed 1 0) r else 0) +
    (-1 : ℝ) • fun p r i => -(part speed r * R p i), fun p x => ?_⟩
  have h0 : ∀ (p : Fin 2) (x : ℝ), gas (line f) p (fun r i => if i = 0 then val (carried γ speed 1 0) r else 0) x =
      carried γ speed 1 0 := by
    intro p x
    refine Eq.trans (congrArg tup ?_) (tup_val _)
    funext r
    refine (line_profile (f := f) p (fun i => if i = 0 then val (carried γ speed 1 0) r else 0) x).trans ?_
    simp
  refine (gas_line (m := line f) (ρ := fun _ => 0) h0 hR (-1) p x).trans ?_
  congr 1
  ring

/-- The thinning stream, with HLLC, in a hundred steps. -/
example (k : Stepper) (σ : Sys ℝ (Fin 2 → Coeff 5 1))
    (hu : ∀ p x, gas (line (upwind (7 / 5) (hllc (7 / 5)))) p (σ.sol p) x = carried (7 / 5) speed 1 (5 + x)) (p : Fin 2)
    (x : ℝ) :
    gas (line (upwind (7 / 5) (hllc (7 / 5)))) p
      ((run k ((line (upwind (7 / 5) (hllc (7 / 5)))).rates (7 / 5) (stream (7 / 5))) 0 (1 / 50) 100 σ).sol p) x =
      carried (7 / 5) speed 1 (1 + x) := by
  have hr := line_regular (f := upwind (7 / 5) (hllc (7 / 5))) (γ := 7 / 5)
  have h := wave_runs (m := line (upwind (7 / 5) (hllc (7 / 5)))) (γ := 7 / 5) (by norm_num) hr
    (hllc_carries (by norm_num) hr fun g hg q hq => by
      obtain rfl := List.eq_of_mem_singleton hg
      obtain rfl := List.eq_of_mem_singleton hq
      rfl) one_pos line_thick line_thin line_fits k 0 (1 / 50) 100 σ (fun p x => by rw [hu p x]; simp [thick])
    (fun x hx => by
      have := line_places hx
      simp only [thick]
      linarith)
    (fun x hx => by
      have := line_places hx
      simp only [thick]
      push_cast
      linarith) p x
  rw [h]
  congr 1
  simp only [thick]
  push_cast
  ring

end MiniCFD.Carry
