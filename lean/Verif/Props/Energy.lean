import Verif.Lemmas.EnergyLinear
import Mathlib.Analysis.Calculus.Deriv.MeanValue
import Mathlib.Analysis.Calculus.Deriv.Add
import Mathlib.Analysis.Calculus.Deriv.Mul
import Mathlib.Analysis.Calculus.Deriv.Pow
import Mathlib.Analysis.Real.Sqrt
import Mathlib.Tactic.FieldSimp
import Mathlib.Tactic.NormNum

/-!
# C130: discontinuous Galerkin schemes for scalar laws do not gain energy

`dg::General` with `rotated::Single` or `rotated::Burgers`, on any mesh whose rules satisfy the divergence theorem for
the functions in question.
-/

namespace MiniCFD.Energy

open MiniCFD.Spec.Energy MiniCFD.Residual MiniCFD.Projection MiniCFD.Ortho MiniCFD.Parallel MiniCFD.RK

variable {Pt : Type} {n : Nat}
variable (m : Mesh Pt n) (law : Law) (a : Fin 3 → ℝ) (junk : Value 1 → Value 1 → Value 1)

theorem rates_power {c : Conditions Pt 1} (hr : Regular m c) (hb : ByParts m law c) (t : ℝ)
    (u : Fin m.count → Coeff 1 n) :
    power m u (m.rates law a junk c t u) =
      -(m.faces.map fun f => face f.2.2 fun q =>
        loss law (along a q) (sol m f.1 (u f.1 0) q.coord) (sol m f.2.1 (u f.2.1 0) q.coord)).sum +
      ((jobs c t).map fun job => rim m job.1 fun h q =>
        income law (along a q) (job.2 (q.face law a junk) (fun _ => sol m h (u h 0) q.coord) 0)
          (sol m h (u h 0) q.coord)).sum := mesh_power m law a junk hr hb t u

theorem list_nonpos {l : List ℝ} (h : ∀ x ∈ l, x ≤ 0) : l.sum ≤ 0 := by
  induction l with
  | nil => simp
  | cons x l ih =>
    rw [List.sum_cons]
    have := h x (by simp)
    have := ih fun y hy => h y (by simp [hy])
    linarith

/-! ### The balance of energy -/

/-- What a point of a face takes from the energy is not negative; for the linear equation it is known. -/
theorem face_loses (alpha l r : ℝ) : 0 ≤ loss law alpha l r ∧ loss .single alpha l r = |alpha| * (l - r) ^ 2 / 2 :=
  ⟨loss_nonneg law alpha l r, loss_single alpha l r⟩

/-- **C130.** If coefficients change at the rates computed, the energy changes by what the faces take and the boundaries
give; it does not depend on the insides of cells. -/
theorem energy_balance {c : Conditions Pt 1} (hr : Regular m c) (hb : ByParts m law c)
    {U : ℝ → Fin m.count → Coeff 1 n} {t : ℝ}
    (hU : ∀ p r i, HasDerivAt (fun s => U s p r i) (m.rates law a junk c t (U t) p r i) t) :
    HasDerivAt (fun s => energy m (U s))
      (2 * (-(m.faces.map fun f => face f.2.2 fun q =>
          loss law (along a q) (sol m f.1 (U t f.1 0) q.coord) (sol m f.2.1 (U t f.2.1 0) q.coord)).sum +
        ((jobs c t).map fun job => rim m job.1 fun h q =>
          income law (along a q) (job.2 (q.face law a junk) (fun _ => sol m h (U t h 0) q.coord) 0)
            (sol m h (U t h 0) q.coord)).sum)) t := by
  rw [← rates_power m law a junk hr hb t (U t), power_eq m hr]
  have e : (fun s => energy m (U s)) = fun s => ∑ p, ∑ i, U s p 0 i ^ 2 := by
    funext s
    exact energy_eq m hr (U s)
  rw [e, Finset.mul_sum]
  refine HasDerivAt.fun_sum fun p _ => ?_
  rw [Finset.mul_sum]
  refine HasDerivAt.fun_sum fun i _ => ?_
  have := (hU p 0 i).pow 2
  refine this.congr_deriv ?_
  simp
  ring

theorem rim_mono {c : Conditions Pt 1} (hr : Regular m c) (name : String) {f g : Fin m.count → Point Pt → ℝ}
    (h : OnRim m name fun p q => f p q ≤ g p q) : rim m name f ≤ rim m name g := by
  simp only [rim]
  cases hn : m.boundary name with
  | none => simp
  | some faces =>
    refine List.sum_le_sum fun x hx => ?_
    refine List.sum_le_sum fun q hq => ?_
    exact mul_le_mul_of_nonneg_left (h faces hn x hx q hq) (hr.rims name faces hn x hx q hq)

theorem income_inlet {alpha g u : ℝ} (h : speed law alpha u ≤ 0) :
    income law alpha (law.flux alpha g) u ≤ gain law alpha g := by
  cases law with
  | single =>
    simp only [speed] at h
    simp only [income, potential, Law.flux, Simple.singleFlux, gain]
    rw [abs_of_nonpos h]
    have := mul_nonneg (neg_nonneg.2 h) (sq_nonneg (u - g))
    nlinarith
  | burgers =>
    simp only [speed] at h
    simp only [income, potential, Law.flux, Simple.burgersFlux, gain]
    have e1 : alpha * u = -(|alpha| * |u|) := by rw [← abs_mul, abs_of_nonpos h]; ring
    have e2 : alpha * (u ^ 3 / 6) = -(|alpha| * |u| ^ 3) / 6 := by
      have : alpha * (u ^ 3 / 6) = (alpha * u) * u ^ 2 / 6 := by ring
      rw [this, e1, ← sq_abs u]; ring
    have e3 : g * g * alpha / 2 * u = -(|alpha| * |u| * |g| ^ 2) / 2 := by
      have : g * g * alpha / 2 * u = (alpha * u) * g ^ 2 / 2 := by ring
      rw [this, e1, ← sq_abs g]; ring
    rw [e2, e3]
    have k : 0 ≤ |alpha| * ((|u| - |g|) ^ 2 * (|u| + 2 * |g|)) := by positivity
    nlinarith

theorem income_outlet {alpha u : ℝ} (h : 0 ≤ speed law alpha u) : income law alpha (law.flux alpha u) u ≤ 0 := by
  cases law with
  | single =>
    simp only [speed] at h
    simp only [income, potential, Law.flux, Simple.singleFlux]
    have := mul_nonneg h (sq_nonneg u)
    nlinarith
  | burgers =>
    simp only [speed] at h
    simp only [income, potential, Law.flux, Simple.burgersFlux]
    have := mul_nonneg h (sq_nonneg u)
    nlinarith

/-- **C130.** The power is at most what the inlets bring. -/
theorem power_bound {c : Conditions Pt 1} (hr : Regular m c) (hb : ByParts m law c) (hs : Supported c) (t : ℝ)
    {u : Fin m.count → Coeff 1 n} (hf : Fits m law a c u) :
    power m u (m.rates law a junk c t u) ≤
      (c.supersonicInlet.map fun nf => rim m nf.1 fun _ q => gain law (along a q) (nf.2 q.coord t 0)).sum := by
  refine (rates_power m law a junk hr hb t u).le.trans ?_
  rw [jobs_plain hs.subsonicInlet hs.subsonicOutlet hs.smart]
  simp only [List.map_append, List.sum_append, List.map_map, Function.comp_def, Point.face, riemann, aNormal_along]
  have k1 : 0 ≤ (m.faces.map fun f => face f.2.2 fun q =>
      loss law (along a q) (sol m f.1 (u f.1 0) q.coord) (sol m f.2.1 (u f.2.1 0) q.coord)).sum := by
    refine List.sum_nonneg fun x hx => ?_
    obtain ⟨f, hf, rfl⟩ := List.mem_map.1 hx
    refine List.sum_nonneg fun y hy => ?_
    obtain ⟨q, hq, rfl⟩ := List.mem_map.1 hy
    exact mul_nonneg (hr.weights f hf q hq) (loss_nonneg _ _ _ _)
  have k2 : (c.solidWall.map fun name => rim m name fun h q =>
      income law (along a q) 0 (sol m h (u h 0) q.coord)).sum ≤ 0 := by
    refine list_nonpos fun x hx => ?_
    obtain ⟨name, hn, rfl⟩ := List.mem_map.1 hx
    refine (rim_mono m hr name fun faces hfc f hff q hq => ?_).trans (rim_zero m name).le
    have := hf.wall name hn faces hfc f hff q hq
    simp only [income, this]
    simp
  have k3 : (c.supersonicOutlet.map fun name => rim m name fun h q =>
      income law (along a q) (law.flux (along a q) (sol m h (u h 0) q.coord)) (sol m h (u h 0) q.coord)).sum ≤ 0 := by
    refine list_nonpos fun x hx => ?_
    obtain ⟨name, hn, rfl⟩ := List.mem_map.1 hx
    refine (rim_mono m hr name fun faces hfc f hff q hq => ?_).trans (rim_zero m name).le
    exact income_outlet law (hf.outlet name hn faces hfc f hff q hq)
  have k4 : (c.supersonicInlet.map fun nf => rim m nf.1 fun h q =>
      income law (along a q) (law.flux (along a q) (nf.2 q.coord t 0)) (sol m h (u h 0) q.coord)).sum ≤
      (c.supersonicInlet.map fun nf => rim m nf.1 fun _ q => gain law (along a q) (nf.2 q.coord t 0)).sum := by
    refine List.sum_le_sum fun nf hn => ?_
    refine rim_mono m hr nf.1 fun faces hfc f hff q hq => ?_
    exact income_inlet law (hf.inlet nf hn faces hfc f hff q hq)
  linarith

/-- **C130.** With nothing coming in, the energy does not grow. -/
theorem energy_decays {c : Conditions Pt 1} (hr : Regular m c) (hb : ByParts m law c) (hs : Supported c)
    {U : ℝ → Fin m.count → Coeff 1 n} {t0 t1 : ℝ} (h01 : t0 ≤ t1)
    (hU : ∀ t ∈ Set.Icc t0 t1, ∀ p r i, HasDerivAt (fun s => U s p r i) (m.rates law a junk c t (U t) p r i) t)
    (hf : ∀ t ∈ Set.Icc t0 t1, Fits m law a c (U t))
    (hq : ∀ nf ∈ c.supersonicInlet, ∀ x t, nf.2 x t 0 = 0) : energy m (U t1) ≤ energy m (U t0) := by
  have hd : ∀ t ∈ Set.Icc t0 t1, HasDerivAt (fun s => energy m (U s)) (2 * power m (U t) (m.rates law a junk c t (U t)))
      t := by
    intro t ht
    have := energy_balance m law a junk hr hb (hU t ht)
    rwa [← rates_power m law a junk hr hb t (U t)] at this
  have hn : ∀ t ∈ Set.Icc t0 t1, 2 * power m (U t) (m.rates law a junk c t (U t)) ≤ 0 := by
    intro t ht
    have := power_bound m law a junk hr hb hs t (hf t ht)
    have z : (c.supersonicInlet.map fun nf => rim m nf.1 fun _ q => gain law (along a q) (nf.2 q.coord t 0)).sum ≤ 0 := by
      refine list_nonpos fun x hx => ?_
      obtain ⟨nf, hn, rfl⟩ := List.mem_map.1 hx
      simp only [hq nf hn]
      have : ∀ al, gain law al 0 = 0 := by intro al; cases law <;> simp [gain]
      simp only [this, rim_zero, le_refl]
    linarith
  have hc : ContinuousOn (fun s => energy m (U s)) (Set.Icc t0 t1) := fun t ht => (hd t ht).continuousAt.continuousWithinAt
  refine antitoneOn_of_deriv_nonpos (convex_Icc t0 t1) hc ?_ ?_ (Set.left_mem_Icc.2 h01) (Set.right_mem_Icc.2 h01) h01
  · intro t ht
    exact (hd t (interior_subset ht)).differentiableAt.differentiableWithinAt
  · intro t ht
    rw [(hd t (interior_subset ht)).deriv]
    exact hn t (interior_subset ht)

/-! ### Steps of third order -/

/-- The energy of the difference of two solutions of the linear equation. -/
theorem energy_dot {c : Conditions Pt 1} (hr : Regular m c) (u : Fin m.count → Coeff 1 n) :
    energy m u = dot m.count n u u := by
  rw [energy_eq m hr]
  show _ = ∑ p, ∑ i, u p 0 i * u p 0 i
  simp only [pow_two]

theorem operator_dissipates {c : Conditions Pt 1} (hr : Regular m c) (hb : ByParts m .single c) (hs : Supported c)
    (hf : ∀ u, Fits m .single a c u) (u : Fin m.count → Coeff 1 n) :
    dot m.count n u (operator m a junk hr hs.subsonicInlet hs.subsonicOutlet hs.smart u) ≤ 0 := by
  have hr' := quiet_regular m hr
  have hf' : Fits m .single a (quiet c) u := by
    refine ⟨(hf u).wall, (hf u).outlet, ?_⟩
    intro nf hn
    obtain ⟨nf', hn', rfl⟩ := List.mem_map.1 hn
    exact (hf u).inlet nf' hn'
  have h := power_bound m .single a junk hr' (quiet_byParts m .single hb)
    ⟨hs.subsonicInlet, hs.subsonicOutlet, hs.smart⟩ 0 hf'
  have z : ((quiet c).supersonicInlet.map fun nf => rim m nf.1 fun _ q =>
      gain .single (along a q) (nf.2 q.coord 0 0)).sum = 0 := by
    simp [quiet, List.map_map, Function.comp_def, gain, rim_zero]
  rw [z, power_eq m hr'] at h
  exact h

/-- **C130.** Two runs of `RungeKutta<3>` for the linear equation, with the same inflow: the energy of the difference
does not grow if no step of Euler's method changes a solution without inflow by more than itself. -/
theorem rk3_contracts {c : Conditions Pt 1} (hr : Regular m c) (hb : ByParts m .single c) (hs : Supported c)
    (hf : ∀ u, Fits m .single a c u) {dt : ℝ} (h0 : 0 ≤ dt)
    (hdt : ∀ u, dt ^ 2 * energy m (m.rates .single a junk (quiet c) 0 u) ≤ energy m u)
    (t : ℝ) (N : Nat) (s s' : Sys ℝ (Fin m.count → Coeff 1 n)) :
    energy m ((run .rk3 (m.rates .single a junk c) t dt N s).sol - (run .rk3 (m.rates .single a junk c) t dt N s').sol)
      ≤ energy m (s.sol - s'.sol) := by
  have hd := run3_diff (R := m.rates .single a junk c) (operator m a junk hr hs.subsonicInlet hs.subsonicOutlet hs.smart)
    (fun t p _ i => source m a c t p (fun j => if j = i then 1 else 0))
    (fun t u => rates_affine m a junk hr hs.subsonicInlet hs.subsonicOutlet hs.smart t u) t dt N s s'
  rw [hd]
  clear hd
  induction N with
  | zero => exact le_rfl
  | succ N ih =>
    rw [Function.iterate_succ_apply']
    refine le_trans ?_ ih
    rw [energy_dot m hr, energy_dot m hr]
    refine cubic_contracts (dot m.count n) ?_ ?_ _ (operator_dissipates m a junk hr hb hs hf) h0 ?_ _
    · intro u v
      show ∑ p, ∑ i, u p 0 i * v p 0 i = ∑ p, ∑ i, v p 0 i * u p 0 i
      exact Finset.sum_congr rfl fun p _ => Finset.sum_congr rfl fun i _ => mul_comm _ _
    · intro u
      show 0 ≤ ∑ p, ∑ i, u p 0 i * u p 0 i
      exact Finset.sum_nonneg fun p _ => Finset.sum_nonneg fun i _ => mul_self_nonneg _
    · intro u
      have := hdt u
      rw [energy_dot m hr, energy_dot m hr] at this
      exact this

/-- **C130.** There are such steps: all that are short enough. -/
theorem rk3_short {c : Conditions Pt 1} (hr : Regular m c) (hb : ByParts m .single c) (hs : Supported c)
    (hf : ∀ u, Fits m .single a c u) :
    ∃ dt0 > 0, ∀ dt, 0 ≤ dt → dt ≤ dt0 → ∀ (t : ℝ) (N : Nat) (s s' : Sys ℝ (Fin m.count → Coeff 1 n)),
      energy m ((run .rk3 (m.rates .single a junk c) t dt N s).sol -
        (run .rk3 (m.rates .single a junk c) t dt N s').sol) ≤ energy m (s.sol - s'.sol) := by
  obtain ⟨M, hM, hL⟩ := dot_bounded (operator m a junk hr hs.subsonicInlet hs.subsonicOutlet hs.smart)
  have hpos : 0 < M + 1 := by linarith
  refine ⟨1 / (M + 1), by positivity, fun dt h0 h1 t N s s' => rk3_contracts m a junk hr hb hs hf h0 ?_ t N s s'⟩
  intro u
  rw [energy_dot m hr, energy_dot m hr]
  have hu : 0 ≤ dot m.count n u u := by
    show 0 ≤ ∑ p, ∑ i, u p 0 i * u p 0 i
    exact Finset.sum_nonneg fun p _ => Finset.sum_nonneg fun i _ => mul_self_nonneg _
  have h2 : dt ^ 2 * M ≤ 1 := by
    have : dt * (M + 1) ≤ 1 := by rwa [le_div_iff₀ hpos] at h1
    have d1 : dt ≤ 1 := by nlinarith
    nlinarith
  have h3 := hL u
  calc dt ^ 2 * dot m.count n (operator m a junk hr hs.subsonicInlet hs.subsonicOutlet hs.smart u)
        (operator m a junk hr hs.subsonicInlet hs.subsonicOutlet hs.smart u)
      ≤ dt ^ 2 * (M * dot m.count n u u) := mul_le_mul_of_nonneg_left h3 (sq_nonneg _)
    _ = (dt ^ 2 * M) * dot m.count n u u := by ring
    _ ≤ 1 * dot m.count n u u := mul_le_mul_of_nonneg_right h2 hu
    _ = dot m.count n u u := one_mul _

/-! ### The hypotheses are met: the intervals from 0 to 1 and from 1 to 2, with linear functions -/

/-- The functions `1` and `2 √3 (x - s - 1/2)` on the interval from `s` to `s + 1`, with two Gaussian points. -/
noncomputable def interval (s : ℝ) : Basis ℝ 1 :=
  ⟨⟨fun i j => if i = j then (if i = 0 then 1 else 2 * √3) else 0⟩, fun x j => (x - s - 1 / 2) ^ j,
    [(s + 1 / 2 - 1 / (2 * √3), 1 / 2), (s + 1 / 2 + 1 / (2 * √3), 1 / 2)]⟩

/-- Flow to the right. -/
def east : Fin 3 → ℝ := fun k => if k = 0 then 1 else 0

noncomputable def two : Mesh ℝ 1 where
  count := 2
  basis p := interval p.val
  gradValue _ coeff _ k := if k = 0 then coeff 1 else 0
  nodes _ _ := 0
  inter _ := false
  faces := [(0, 1, [⟨1, 1, east⟩])]
  boundary name :=
    if name = "in" then some [(0, [⟨0, 1, fun k => -east k⟩])]
    else if name = "out" then some [(1, [⟨2, 1, east⟩])] else none

/-- An inlet and an outlet. -/
noncomputable def inOut (g : ℝ → ℝ) : Conditions ℝ 1 :=
  { supersonicInlet := [("in", fun _ t _ => g t)], supersonicOutlet := ["out"] }

theorem two_values (p : Fin two.count) (x : ℝ) (i : Fin (1 + 1)) :
    basisValues (interval p.val) x i = if i = 0 then 1 else 2 * √3 * (x - p.val - 1 / 2) := by
  fin_cases i <;> simp [basisValues, fullEval, interval, Finset.sum_range_succ]

theorem two_sol (p : Fin two.count) (v : Fin (1 + 1) → ℝ) (x : ℝ) :
    sol two p v x = v 0 + v 1 * (2 * √3 * (x - p.val - 1 / 2)) := by
  have : sol two p v x = ∑ i : Fin 2, v i * basisValues (interval p.val) x i := rfl
  rw [this, Fin.sum_univ_two]
  refine (congrArg₂ (· + ·) (congrArg (v 0 * ·) (two_values p x 0)) (congrArg (v 1 * ·) (two_values p x 1))).trans ?_
  simp

theorem two_slope (p : Fin two.count) (v : Fin (1 + 1) → ℝ) (x : ℝ) (k : Fin 3) :
    Spec.Energy.slope two p v x k = if k = 0 then v 1 * (2 * √3) else 0 := by
  have : Spec.Energy.slope two p v x k =
    ∑ i : Fin 2, v i * (if k = 0 then (interval p.val).linear.coeff i 1 else 0) := rfl
  rw [this, Fin.sum_univ_two]
  split_ifs <;> simp [interval]

theorem two_regular (g : ℝ → ℝ) : Regular two (inOut g) := by
  have h3 : √3 ^ 2 = 3 := Real.sq_sqrt (by norm_num)
  have hp : √3 ≠ 0 := by positivity
  refine ⟨?_, ?_, ?_, ?_, ?_⟩
  · intro p i j
    show integrate (fun x => basisValues (interval p.val) x i * basisValues (interval p.val) x j)
      (interval p.val).rule = _
    simp only [two_values]
    simp only [interval, integrate_eq, List.map_cons, List.map_nil, List.sum_cons, List.sum_nil]
    fin_cases i <;> fin_cases j <;> simp <;> field_simp <;> ring
  · intro h
    exact absurd h (by norm_num)
  · intro f hf q hq
    obtain rfl := List.eq_of_mem_singleton hf
    obtain rfl := List.eq_of_mem_singleton hq
    norm_num
  · intro name faces h f hf q hq
    simp only [two] at h
    split_ifs at h
    all_goals
      obtain rfl := Option.some.inj h
      obtain rfl := List.eq_of_mem_singleton hf
      obtain rfl := List.eq_of_mem_singleton hq
      norm_num
  · intro name h
    have h' : name = "in" ∨ name = "out" := by simpa [names, inOut] using h
    rcases h' with rfl | rfl <;> simp [two]

theorem two_byParts (law : Law) (g : ℝ → ℝ) : ByParts two law (inOut g) := by
  have h3 : √3 ^ 2 = 3 := Real.sq_sqrt (by norm_num)
  have hp : √3 ≠ 0 := by positivity
  intro p v k
  have e : surface two (inOut g) p (fun q => q.normal k * potential law (sol two p v q.coord)) =
      east k * (potential law (sol two p v (p.val + 1)) - potential law (sol two p v p.val)) := by
    match p with
    | ⟨0, _⟩ =>
      simp [surface, two, names, inOut, rim, face]
      ring
    | ⟨1, _⟩ =>
      simp [surface, two, names, inOut, rim, face]
      norm_num
      ring
  rw [e]
  show integrate _ (interval p.val).rule = _
  simp only [interval, integrate_eq, List.map_cons, List.map_nil, List.sum_cons, List.sum_nil, two_sol, two_slope, east]
  split_ifs
  · cases law
    · simp only [shape, potential]
      field_simp
      ring_nf
    · simp only [shape, potential]
      field_simp
      ring_nf
      rw [show √3 ^ 3 = 3 * √3 by rw [pow_succ, h3]]
      ring
  · simp

theorem two_fits_of (law : Law) (g : ℝ → ℝ) (u : Fin 2 → Coeff 1 1)
    (h0 : speed law (-1) (sol two (0 : Fin 2) (u 0 0) 0) ≤ 0) (h1 : 0 ≤ speed law 1 (sol two (1 : Fin 2) (u 1 0) 2)) :
    Fits two law east (inOut g) u := by
  refine ⟨?_, ?_, ?_⟩
  · intro name h
    simp [inOut] at h
  · intro name h faces hb f hf q hq
    obtain rfl := List.eq_of_mem_singleton h
    have hb' : faces = [((1 : Fin 2), [⟨2, 1, east⟩])] := by
      simp only [two] at hb
      exact (Option.some.inj hb).symm
    subst hb'
    obtain rfl := List.eq_of_mem_singleton hf
    obtain rfl := List.eq_of_mem_singleton hq
    have : along east (⟨2, 1, east⟩ : Point ℝ) = 1 := by simp [along, east]
    rw [this]
    exact h1
  · intro nf h faces hb f hf q hq
    obtain rfl := List.eq_of_mem_singleton h
    have hb' : faces = [((0 : Fin 2), [⟨0, 1, fun k => -east k⟩])] := by
      simp only [two] at hb
      exact (Option.some.inj hb).symm
    subst hb'
    obtain rfl := List.eq_of_mem_singleton hf
    obtain rfl := List.eq_of_mem_singleton hq
    have : along east (⟨0, 1, fun k => -east k⟩ : Point ℝ) = -1 := by simp [along, east]
    rw [this]
    exact h0

theorem two_fits (g : ℝ → ℝ) (u : Fin 2 → Coeff 1 1) : Fits two .single east (inOut g) u :=
  two_fits_of .single g u (by simp [speed]) (by simp [speed])

/-- The function one. -/
def ones : Fin 2 → Coeff 1 1 := fun _ _ i => if i = 0 then 1 else 0

example : power two ones (two.rates .burgers east junk (inOut fun _ => 1) 0 ones) ≤ 1 / 3 := by
  refine (power_bound two .burgers east junk (two_regular _) (two_byParts .burgers _) ⟨rfl, rfl, rfl⟩ 0
    (two_fits_of .burgers _ ones ?_ ?_)).trans ?_
  · have := two_sol (0 : Fin 2) (ones 0 0) 0
    rw [this]
    simp [speed, ones]
  · have := two_sol (1 : Fin 2) (ones 1 0) 2
    rw [this]
    simp [speed, ones]
  · simp [inOut, rim, two, face, gain, along, east]

example (g : ℝ → ℝ) : ∃ dt0 > 0, ∀ dt, 0 ≤ dt → dt ≤ dt0 → ∀ (t : ℝ) (N : Nat) (s s' : Sys ℝ (Fin 2 → Coeff 1 1)),
    energy two ((run .rk3 (two.rates .single east junk (inOut g)) t dt N s).sol -
      (run .rk3 (two.rates .single east junk (inOut g)) t dt N s').sol) ≤ energy two (s.sol - s'.sol) :=
  rk3_short two east junk (two_regular g) (two_byParts .single g) ⟨rfl, rfl, rfl⟩ (two_fits g)

end MiniCFD.Energy
