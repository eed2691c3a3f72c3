import Verif.Lemmas.PyFirstStep
import Verif.Model.PyLoop
import Verif.Props.PyFirst
import Verif.Props.PyFRDG
import Mathlib.Algebra.Order.Archimedean.Basic
import Mathlib.Tactic.FinCases

/-! # C128: step sizes from `suggest_delta_t` for elements of degree zero -/

namespace MiniCFD.PyFirst
open MiniCFD.PyQuad MiniCFD.PyExpansion MiniCFD.PyDG MiniCFD.PyEnergy
open MiniCFD.PyScalar (Solver linearSolver burgersSolver)
open MiniCFD.RK (Sys)
open MiniCFD.Spec.PyFirst

variable {n : ℕ}

/-- The suggestion for an element of degree zero without diffusion. -/
theorem suggestion {h lc : ℝ} : PyLoop.blazek false 0 h lc 0 = some (h / max lc (1 / 10 ^ 16) * (1256 / 1000)) := by
  simp [PyLoop.blazek, PyLoop.cfl, PyLoop.cflTable]

/-- The upwind neighbour. -/
def upwind (n : ℕ) (a : ℝ) [Decidable (0 ≤ a)] : Equiv.Perm (Fin (n + 2)) :=
  if 0 ≤ a then Equiv.subRight 1 else Equiv.addRight 1

open scoped Classical in
/-- The residual for linear advection. -/
theorem residual_linear {a h : ℝ} {co : Fin (n + 2) → Coordinate} (hh : 0 < h) (hlen : ∀ i, (co i).xRight - (co i).xLeft = h)
    {setup : Fin (n + 2) → Setup 0} (hb : ∀ i, Built (co i) (setup i))
    {R : ℝ → (Fin (n + 2) → Fin 1 → ℝ) → Fin (n + 2) → Fin 1 → ℝ}
    (hR : ∀ t u i, PyDG.residual (physics (linearSolver a 0)) (grid setup u) i = some (R t u i)) (t : ℝ)
    (u : Fin (n + 2) → Fin 1 → ℝ) (i : Fin (n + 2)) (k : Fin 1) :
    R t u i k = |a| / h * drop (upwind n a) (fun i => u i 0) i := by
  have hc : ∀ i, (co i).xLeft < (co i).xRight := fun i => by have := hlen i; linarith
  have hv : ∀ l r, (linearSolver a 0).upwindFlux l r = a * (if 0 ≤ a then l else r) := by
    intro l r
    by_cases h : 0 ≤ a <;> simp [Solver.upwindFlux, Solver.getValue, linearSolver, PyScalar.linear, h]
  have := congrFun (Option.some.inj ((hR t u i).symm.trans (residual_first (.inl ⟨a, rfl⟩) hc hb u i))) k
  rw [this, rate, hv, hv, hlen, drop, upwind]
  by_cases h0 : 0 ≤ a
  · simp only [if_pos h0, abs_of_nonneg h0, Equiv.subRight_apply]; ring
  · simp only [if_neg h0, abs_of_neg (not_le.1 h0), Equiv.coe_addRight]; ring

section
variable {a h : ℝ} (hh : 0 < h) {co : Fin (n + 2) → Coordinate} (hlen : ∀ i, (co i).xRight - (co i).xLeft = h)
  {setup : Fin (n + 2) → Setup 0} (hb : ∀ i, Built (co i) (setup i))
  {R : ℝ → (Fin (n + 2) → Fin 1 → ℝ) → Fin (n + 2) → Fin 1 → ℝ}
  (hR : ∀ t u i, PyDG.residual (physics (linearSolver a 0)) (grid setup u) i = some (R t u i))

include hh hlen hb hR

open scoped Classical in
theorem third_step (t dt : ℝ) (u : Fin (n + 2) → Fin 1 → ℝ) (i : Fin (n + 2)) (k : Fin 1) :
    RK.step3 R t dt u i k = third (upwind n a) (dt * (|a| / h)) (fun i => u i 0) i := by
  have hr := residual_linear hh hlen hb hR
  rw [Fin.fin_one_eq_zero k]
  simp only [RK.step3, RK.half3, RK.step1, Pi.add_apply, Pi.smul_apply, smul_eq_mul, hr, third, drop]
  ring

/-- With the third order method and equal elements, steps no longer than suggested keep the energy from growing, for
any number of steps. -/
theorem energy_partial {dts : List ℝ} (hdt : ∀ dt ∈ dts, 0 ≤ dt)
    (hs : ∀ dt ∈ dts, ∃ m, PyLoop.blazek false 0 h ((linearSolver a 0).eq.radius 0) 0 = some m ∧ dt ≤ m) :
    ∀ {t : ℝ} {sys sys' : Sys ℝ (Fin (n + 2) → Fin 1 → ℝ)}, PyRK.march 3 id R dts t sys = some sys' →
      ∑ i, held co setup sys'.sol i ^ 2 ≤ ∑ i, held co setup sys.sol i ^ 2 := by
  have hc : ∀ i, (co i).xLeft < (co i).xRight := fun i => by have := hlen i; linarith
  induction dts with
  | nil => intro t sys sys' hm; cases hm; exact le_rfl
  | cons dt dts ih =>
    intro t sys sys' hm
    rw [PyRK.march] at hm
    obtain ⟨s1, e1, hm⟩ := Option.bind_eq_some_iff.1 hm
    refine (ih (fun x hx => hdt x (List.mem_cons_of_mem _ hx)) (fun x hx => hs x (List.mem_cons_of_mem _ hx)) hm).trans ?_
    have hsol := PyRK.update_sol e1
    classical
    simp only [held_eq hc hb, hsol, PyRK.stepOf, third_step hh hlen hb hR]
    obtain ⟨m, hm, hle⟩ := hs dt List.mem_cons_self
    rw [suggestion] at hm
    have hrad : (linearSolver a 0).eq.radius 0 = |a| := rfl
    rw [hrad] at hm
    have hpos : 0 < max |a| (1 / 10 ^ 16) := lt_max_of_lt_right (by norm_num)
    refine third_energy _ _ (mul_nonneg (hdt dt List.mem_cons_self) (by positivity)) ?_
    rw [← Option.some.inj hm] at hle
    calc dt * (|a| / h) ≤ h / max |a| (1 / 10 ^ 16) * (1256 / 1000) * (|a| / h) :=
          mul_le_mul_of_nonneg_right hle (by positivity)
      _ = |a| / max |a| (1 / 10 ^ 16) * (1256 / 1000) := by field_simp
      _ ≤ 1 * (1256 / 1000) := by
          refine mul_le_mul_of_nonneg_right ?_ (by norm_num)
          rw [div_le_one hpos]
          exact le_max_left _ _
      _ = _ := one_mul _

end

/-- Opposite values in two elements. -/
def alternate (x : ℝ) (i : Fin 2) (_ : Fin 1) : ℝ := if i = 0 then x else -x

theorem smul_alternate (c x : ℝ) : c • alternate x = alternate (c * x) := by
  funext i k
  fin_cases i <;> simp [alternate]

theorem add_alternate (x y : ℝ) : alternate x + alternate y = alternate (x + y) := by
  funext i k
  fin_cases i <;> simp [alternate]; ring

open scoped Classical in
/-- Two equal elements with opposite values: what each step multiplies them with. -/
theorem alternating {a h dt v : ℝ} {R : ℝ → (Fin 2 → Fin 1 → ℝ) → Fin 2 → Fin 1 → ℝ}
    (hr : ∀ t u i k, R t u i k = |a| / h * drop (upwind 0 a) (fun i => u i 0) i) (hz : dt * (|a| / h) = v)
    {order : ℕ} (h1 : 1 ≤ order) (h4 : order ≤ 4)
    (hq : 3 / 2 ≤ |∑ k ∈ Finset.range (order + 1), (-(2 * v)) ^ k / (k.factorial : ℝ)|) (bound : ℝ) :
    ∃ k sys', PyRK.march order id R (List.replicate k dt) 0 ⟨0, alternate 1, []⟩ = some sys' ∧
      bound < |sys'.sol 0 0| := by
  have hswap : ∀ i : Fin 2, upwind 0 a i = 1 - i := by
    intro i
    unfold upwind
    split_ifs <;> fin_cases i <;> rfl
  set q : ℝ := ∑ k ∈ Finset.range (order + 1), (-(2 * v)) ^ k / (k.factorial : ℝ) with hqd
  have hR' : ∀ t x, R t (alternate x) = alternate (-(2 * (|a| / h)) * x) := by
    intro t x
    funext i k
    rw [hr, drop, hswap]
    fin_cases i <;> simp [alternate] <;> ring
  have hstep : ∀ t x, PyRK.stepOf order R t dt (alternate x) = alternate (q * x) := by
    intro t x
    have hv : v = dt * (|a| / h) := hz.symm
    obtain rfl | rfl | rfl | rfl : order = 1 ∨ order = 2 ∨ order = 3 ∨ order = 4 := by omega
    all_goals
      simp only [PyRK.stepOf, PyRK.step4, RK.step1, RK.step2, RK.step3, RK.half3, hR', smul_alternate, add_alternate]
      refine congrArg alternate ?_
      simp only [hqd, Finset.sum_range_succ, Finset.sum_range_zero, Nat.factorial, hv]
      push_cast
      ring
  have hrun : ∀ (k : ℕ) (t x : ℝ) (sys : Sys ℝ (Fin 2 → Fin 1 → ℝ)), sys.sol = alternate x →
      ∃ sys', PyRK.march order id R (List.replicate k dt) t sys = some sys' ∧ sys'.sol = alternate (q ^ k * x) := by
    intro k
    induction k with
    | zero => intro t x sys hs; exact ⟨sys, rfl, by simpa using hs⟩
    | succ k ih =>
      intro t x sys hs
      obtain ⟨s1, e1⟩ := PyRK.update_defined (order := order) (by omega) (by omega) id R dt t sys
      obtain ⟨s2, e2, h2⟩ := ih (t + dt) (q * x) s1 (by rw [PyRK.update_sol e1, hs]; exact hstep t x)
      refine ⟨s2, by rw [List.replicate_succ, PyRK.march, e1]; exact e2, ?_⟩
      rw [h2, pow_succ, mul_assoc]
  obtain ⟨k, hk⟩ := pow_unbounded_of_one_lt bound (show (1 : ℝ) < 3 / 2 by norm_num)
  obtain ⟨sys', e, hs⟩ := hrun k 0 1 ⟨0, alternate 1, []⟩ rfl
  refine ⟨k, sys', e, ?_⟩
  rw [hs, alternate, if_pos rfl, mul_one, abs_pow]
  exact hk.trans_le (pow_le_pow_left₀ (by norm_num) hq k)

/-- The methods of first and second order with the suggested step: the solution grows beyond all bounds, on any two equal
elements, since the suggestion is for the third order method whichever one runs. -/
theorem low_order_unstable {a h : ℝ} (ha : 1 / 10 ^ 16 ≤ |a|) (hh : 0 < h) {co : Fin 2 → Coordinate}
    (hlen : ∀ i, (co i).xRight - (co i).xLeft = h) {setup : Fin 2 → Setup 0} (hb : ∀ i, Built (co i) (setup i))
    {R : ℝ → (Fin 2 → Fin 1 → ℝ) → Fin 2 → Fin 1 → ℝ}
    (hR : ∀ t u i, PyDG.residual (n := 0) (physics (linearSolver a 0)) (grid setup u) i = some (R t u i))
    {order : ℕ} (ho : order = 1 ∨ order = 2) {dt : ℝ}
    (hdt : PyLoop.blazek false 0 h ((linearSolver a 0).eq.radius 0) 0 = some dt) (bound : ℝ) :
    ∃ k sys', PyRK.march order id R (List.replicate k dt) 0 ⟨0, alternate 1, []⟩ = some sys' ∧
      bound < |held (n := 0) co setup sys'.sol 0| := by
  have hc : ∀ i, (co i).xLeft < (co i).xRight := fun i => by have := hlen i; linarith
  have hrad : (linearSolver a 0).eq.radius 0 = |a| := rfl
  have hz : dt * (|a| / h) = 1256 / 1000 := by
    rw [suggestion, hrad, max_eq_left ha] at hdt
    rw [← Option.some.inj hdt]
    have : |a| ≠ 0 := fun h0 => by rw [h0] at ha; norm_num at ha
    field_simp
  classical
  obtain ⟨k, sys', e, hb'⟩ := alternating (residual_linear (n := 0) hh hlen hb hR) hz (order := order) (by omega) (by omega)
    (by rcases ho with rfl | rfl <;> norm_num [Finset.sum_range_succ, Nat.factorial, abs_of_pos, abs_of_neg]) bound
  exact ⟨k, sys', e, by rw [held_eq hc hb]; exact hb'⟩

/-- Flux reconstruction suggests steps twice as long.  Where it is the same scheme as the discontinuous Galerkin method,
all four methods then grow beyond all bounds. -/
theorem reconstruction_unstable {a h : ℝ} (ha : 1 / 10 ^ 16 ≤ |a|) (hh : 0 < h) {co : Fin 2 → Coordinate}
    (hlen : ∀ i, (co i).xRight - (co i).xLeft = h) {setup : Fin 2 → Setup 0} (hb : ∀ i, Built (co i) (setup i))
    (hk : ∀ i, (setup i).kind = .uniform ∨ (setup i).kind = .legendreRoots)
    {v : PyPoly.Vincent} (hv : PyPoly.vincent 1 PyPoly.muGalerkin = some v)
    {R : ℝ → (Fin 2 → Fin 1 → ℝ) → Fin 2 → Fin 1 → ℝ}
    (hR : ∀ t u i, PyFR.residual (n := 0) (physics (linearSolver a 0)) (some (.vincent v)) (grid setup u) i = some (R t u i))
    {order : ℕ} (h1 : 1 ≤ order) (h4 : order ≤ 4) {dt : ℝ}
    (hdt : PyLoop.blazek true 0 h ((linearSolver a 0).eq.radius 0) 0 = some dt) (bound : ℝ) :
    ∃ k sys', PyRK.march order id R (List.replicate k dt) 0 ⟨0, alternate 1, []⟩ = some sys' ∧
      bound < |held (n := 0) co setup sys'.sol 0| := by
  have hc : ∀ i, (co i).xLeft < (co i).xRight := fun i => by have := hlen i; linarith
  have hrad : (linearSolver a 0).eq.radius 0 = |a| := rfl
  have hz : dt * (|a| / h) = 2512 / 1000 := by
    have hs : PyLoop.blazek true 0 h |a| 0 = some (h / max |a| (1 / 10 ^ 16) * (2 * (1256 / 1000))) := by
      simp [PyLoop.blazek, PyLoop.cfl, PyLoop.cflTable]
    rw [hrad, hs, max_eq_left ha] at hdt
    rw [← Option.some.inj hdt]
    have : |a| ≠ 0 := fun h0 => by rw [h0] at ha; norm_num at ha
    field_simp
    norm_num
  have hR' : ∀ t u i, PyDG.residual (n := 0) (physics (linearSolver a 0)) (grid setup u) i = some (R t u i) := by
    intro t u i
    obtain ⟨r, e1, e2⟩ := PyFR.same_as_dg (n := 0) hc (physics (linearSolver a 0)) (grid setup u) hb
      (fun i => .coeff (u i) rfl) (fun i => rfl) (by simp [physics, linearSolver, PyScalar.linear]) (fun u => rfl) (v := v)
      (.inr ⟨hv, ⟨LinearMap.lsmul ℝ ℝ a, fun u => rfl⟩, hk⟩) i
    rw [e2, ← e1, hR t u i]
  classical
  obtain ⟨k, sys', e, hb'⟩ := alternating (residual_linear (n := 0) hh hlen hb hR') hz h1 h4
    (by
      obtain rfl | rfl | rfl | rfl : order = 1 ∨ order = 2 ∨ order = 3 ∨ order = 4 := by omega
      all_goals norm_num [Finset.sum_range_succ, Nat.factorial, abs_of_pos, abs_of_neg]) bound
  exact ⟨k, sys', e, by rw [held_eq hc hb]; exact hb'⟩

/-- One suggested step of the third order method makes negative values from a non-negative solution, on any four equal
elements. -/
theorem third_order_overshoots {a h : ℝ} (ha : 1 / 10 ^ 16 ≤ a) (hh : 0 < h) {co : Fin 4 → Coordinate}
    (hlen : ∀ i, (co i).xRight - (co i).xLeft = h) {setup : Fin 4 → Setup 0} (hb : ∀ i, Built (co i) (setup i))
    {R : ℝ → (Fin 4 → Fin 1 → ℝ) → Fin 4 → Fin 1 → ℝ}
    (hR : ∀ t u i, PyDG.residual (n := 2) (physics (linearSolver a 0)) (grid setup u) i = some (R t u i)) {dt : ℝ}
    (hdt : PyLoop.blazek false 0 h ((linearSolver a 0).eq.radius 0) 0 = some dt) (t : ℝ) :
    ∃ sys', PyRK.update 3 id R dt t ⟨t, fun i _ => if i = 0 then 1 else 0, []⟩ = some sys' ∧
      held (n := 2) co setup sys'.sol 2 < -(1 / 5) := by
  have hc : ∀ i, (co i).xLeft < (co i).xRight := fun i => by have := hlen i; linarith
  have ha0 : 0 < a := lt_of_lt_of_le (by norm_num) ha
  have hrad : (linearSolver a 0).eq.radius 0 = |a| := rfl
  have hz : dt * (|a| / h) = 1256 / 1000 := by
    rw [suggestion, hrad, abs_of_pos ha0, max_eq_left ha] at hdt
    rw [← Option.some.inj hdt, abs_of_pos ha0]
    field_simp
  classical
  obtain ⟨s1, e1⟩ := PyRK.update_defined (order := 3) (by omega) (by omega) id R dt t ⟨t, fun i _ => if i = 0 then 1 else 0, []⟩
  refine ⟨s1, e1, ?_⟩
  rw [held_eq hc hb, PyRK.update_sol e1]
  simp only [PyRK.stepOf]
  rw [third_step (n := 2) hh hlen hb hR, hz]
  have hu : ∀ i : Fin 4, upwind 2 a i = i - 1 := by
    intro i; rw [upwind, if_pos ha0.le]; rfl
  simp only [third, drop, hu]
  rw [show (2 : Fin 4) - 1 = 1 from rfl, show (1 : Fin 4) - 1 = 0 from rfl, show (0 : Fin 4) - 1 = 3 from rfl,
    if_neg (show ¬(2 : Fin 4) = 0 by decide), if_neg (show ¬(1 : Fin 4) = 0 by decide),
    if_neg (show ¬(3 : Fin 4) = 0 by decide), if_pos rfl]
  norm_num

/-! ### Cases -/

/-- Equal elements that lie in a row. -/
def row (k : ℕ) (i : Fin k) : Coordinate := .linear (i : ℕ) ((i : ℕ) + 1)

theorem march_defined {V : Type*} [AddCommGroup V] [Module ℝ V] {order : ℕ} (h1 : 1 ≤ order) (h4 : order ≤ 4) (R : ℝ → V → V)
    (dts : List ℝ) : ∀ (t : ℝ) (s : Sys ℝ V), ∃ s', PyRK.march order id R dts t s = some s' := by
  induction dts with
  | nil => exact fun t s => ⟨s, rfl⟩
  | cons dt dts ih =>
    intro t s
    obtain ⟨s1, e1⟩ := PyRK.update_defined h1 h4 id R dt t s
    obtain ⟨s2, e2⟩ := ih (t + dt) s1
    exact ⟨s2, by rw [PyRK.march, e1]; exact e2⟩

/-- Elements on which all of the above runs: a shock of the equation of Burgers that stays within its bounds with three
second order steps. -/
example : ∃ (setup : Fin 2 → Setup 0) (R : ℝ → (Fin 2 → Fin 1 → ℝ) → Fin 2 → Fin 1 → ℝ), (∀ i, Built (pair i) (setup i)) ∧
    (∀ t u i, PyDG.residual (n := 0) (physics (burgersSolver 1)) (grid setup u) i = some (R t u i)) ∧
    ∃ sys', PyRK.march 2 id R [1, 1, 1 / 2] 0 ⟨0, fun i _ => if i = 0 then 1 else -1, []⟩ = some sys' ∧
      ∀ i x, -1 ≤ (setup i).value (setCoeff (setup i) (sys'.sol i)) x ∧
        (setup i).value (setCoeff (setup i) (sys'.sol i)) x ≤ 1 := by
  choose m hm using fun i => (constructors (pair_pos i) gauss1_exact).2.2.1
  have bm : ∀ i, Built (pair i) (m i) := fun i => .modal _ gauss1_exact (hm i)
  have hin : Inviscid (burgersSolver 1) := .inr ⟨1, one_pos, rfl⟩
  have hR : ∀ (_ : ℝ) u i, PyDG.residual (n := 0) (physics (burgersSolver 1)) (grid m u) i = some _ :=
    fun _ u i => residual_first hin pair_pos bm u i
  refine ⟨m, _, bm, hR, ?_⟩
  obtain ⟨s1, e1⟩ := march_defined (order := 2) (by omega) (by omega)
    (fun (_ : ℝ) (u : Fin 2 → Fin 1 → ℝ) i _ => rate (burgersSolver 1).upwindFlux (fun i => (pair i).xRight - (pair i).xLeft) (fun i => u i 0) i)
    [1, 1, 1 / 2] 0 ⟨0, fun i _ => if i = 0 then 1 else -1, []⟩
  refine ⟨s1, e1, (bounds (n := 0) hin pair_pos bm hR (L := 1) (m := -1) (M := 1) ?_ (by omega) ?_ ?_ ?_ e1).1⟩
  · intro v h1 h2
    rw [PyScalar.Equation.radius, show (burgersSolver 1).eq.speed v = 1 * v from rfl, one_mul]
    exact abs_le.2 ⟨h1, h2⟩
  · intro dt hdt
    simp only [List.mem_cons, List.not_mem_nil, or_false] at hdt
    rcases hdt with rfl | rfl | rfl <;> norm_num
  · intro dt hdt i
    simp only [List.mem_cons, List.not_mem_nil, or_false] at hdt
    rcases hdt with rfl | rfl | rfl <;> fin_cases i <;> norm_num [pair, Coordinate.xLeft, Coordinate.xRight]
  · rw [held_eq pair_pos bm]
    intro i
    dsimp only
    split_ifs <;> norm_num

/-- Four equal elements with a residual, as the theorems on the suggested step ask for. -/
example : ∃ (setup : Fin 4 → Setup 0) (R : ℝ → (Fin 4 → Fin 1 → ℝ) → Fin 4 → Fin 1 → ℝ) (dt : ℝ), (∀ i, Built (row 4 i) (setup i)) ∧
    (∀ t u i, PyDG.residual (n := 2) (physics (linearSolver 1 0)) (grid setup u) i = some (R t u i)) ∧
    (∀ i, (row 4 i).xRight - (row 4 i).xLeft = 1) ∧
    PyLoop.blazek false 0 1 ((linearSolver 1 0).eq.radius 0) 0 = some dt := by
  have hc : ∀ i, (row 4 i).xLeft < (row 4 i).xRight := fun i => by simp [row, Coordinate.xLeft, Coordinate.xRight]
  choose m hm using fun i => (constructors (hc i) gauss1_exact).2.2.1
  have bm : ∀ i, Built (row 4 i) (m i) := fun i => .modal _ gauss1_exact (hm i)
  exact ⟨m, _, _, bm, fun _ u i => residual_first (.inl ⟨1, rfl⟩) hc bm u i, fun i => by simp [row, Coordinate.xLeft, Coordinate.xRight], suggestion⟩

/-- Two elements with the Galerkin correction, as the theorem on flux reconstruction asks for. -/
example : ∃ (setup : Fin 2 → Setup 0) (v : PyPoly.Vincent) (R : ℝ → (Fin 2 → Fin 1 → ℝ) → Fin 2 → Fin 1 → ℝ),
    (∀ i, Built (pair i) (setup i)) ∧ (∀ i, (setup i).kind = .uniform ∨ (setup i).kind = .legendreRoots) ∧
    PyPoly.vincent 1 PyPoly.muGalerkin = some v ∧ (∀ i, (pair i).xRight - (pair i).xLeft = 1) ∧
    ∀ t u i, PyFR.residual (n := 0) (physics (linearSolver 1 0)) (some (.vincent v)) (grid setup u) i = some (R t u i) := by
  choose m hm using fun i => (constructors (pair_pos i) gauss1_exact).1
  have bm : ∀ i, Built (pair i) (m i) := fun i => .uniform _ gauss1_exact (hm i)
  have hk : ∀ i, (m i).kind = .uniform := fun i => (lagrange_sane (by simp) (pair_pos i) (hm i)).2.2.1
  obtain ⟨v, hv⟩ : ∃ v, PyPoly.vincent 1 PyPoly.muGalerkin = some v := ⟨_, rfl⟩
  have hres : ∀ u i, ∃ r, PyFR.residual (n := 0) (physics (linearSolver 1 0)) (some (.vincent v)) (grid m u) i = some r := by
    intro u i
    obtain ⟨r, e1, -⟩ := PyFR.same_as_dg (n := 0) pair_pos (physics (linearSolver 1 0)) (grid m u) bm
      (fun i => .coeff (u i) rfl) (fun i => rfl) (by simp [physics, linearSolver, PyScalar.linear]) (fun u => rfl) (v := v)
      (.inr ⟨hv, ⟨LinearMap.lsmul ℝ ℝ 1, fun u => rfl⟩, fun i => .inl (hk i)⟩) i
    exact ⟨r, e1⟩
  choose R hR using hres
  exact ⟨m, v, fun _ u => R u, bm, fun i => .inl (hk i), hv,
    fun i => by fin_cases i <;> norm_num [pair, Coordinate.xLeft, Coordinate.xRight], fun _ u i => hR u i⟩

end MiniCFD.PyFirst
