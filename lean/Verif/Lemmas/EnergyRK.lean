import Verif.Model.RK
import Mathlib.Data.Real.Basic
import Mathlib.Tactic.Linarith
import Mathlib.Tactic.Ring
import Mathlib.Tactic.Module
import Mathlib.Tactic.FieldSimp
import Mathlib.Algebra.Order.Field.Basic

/-!
Third order steps of linear systems that do not gain energy (after Levy and Tadmor, and Tadmor): they do not gain any
either if they are short enough.
-/

namespace MiniCFD.Energy

open MiniCFD.RK

variable {V : Type*} [AddCommGroup V] [Module ℝ V]

/-- What `RungeKutta<3>` computes for `u' = L u`. -/
noncomputable def cubic (L : V →ₗ[ℝ] V) (dt : ℝ) (u : V) : V :=
  u + dt • L u + (dt ^ 2 / 2) • L (L u) + (dt ^ 3 / 6) • L (L (L u))

theorem cubic_contracts (B : V →ₗ[ℝ] V →ₗ[ℝ] ℝ) (hs : ∀ u v, B u v = B v u) (hp : ∀ u, 0 ≤ B u u)
    (L : V →ₗ[ℝ] V) (hL : ∀ u, B u (L u) ≤ 0) {dt : ℝ} (h0 : 0 ≤ dt)
    (hdt : ∀ u, dt ^ 2 * B (L u) (L u) ≤ B u u) (u : V) : B (cubic L dt u) (cubic L dt u) ≤ B u u := by
  set x1 := L u with h1
  set x2 := L x1 with h2
  set x3 := L x2 with h3
  have q0 := hL (u + (dt / 2) • x1 + (dt ^ 2 / 6) • x2)
  have q1 := hL (x1 + dt • x2)
  have q2 := hp (dt • x3 + x2)
  have q3 := hdt x2
  simp only [map_add, map_smul, LinearMap.add_apply, LinearMap.smul_apply, smul_eq_mul, ← h1, ← h2, ← h3] at q0 q1 q2 q3
  simp only [cubic, map_add, map_smul, LinearMap.add_apply, LinearMap.smul_apply, smul_eq_mul, ← h1, ← h2, ← h3]
  have s01 := hs x1 u
  have s02 := hs x2 u
  have s03 := hs x3 u
  have s12 := hs x2 x1
  have s13 := hs x3 x1
  have s23 := hs x3 x2
  rw [s01, s02, s03, s12, s13, s23]
  rw [s12] at q0
  rw [s23] at q2
  have d2 := pow_nonneg h0 2
  have d3 := pow_nonneg h0 3
  have d4 := pow_nonneg h0 4
  have k0 := mul_nonneg h0 (neg_nonneg.2 q0)
  have k1 := mul_nonneg d3 (neg_nonneg.2 q1)
  have k2 := mul_nonneg d4 q2
  have k3 := mul_le_mul_of_nonneg_left q3 d4
  linarith

/-- Differences of runs of a system that is linear but for a source. -/
theorem update3_diff {R : ℝ → V → V} (L : V →ₗ[ℝ] V) (b : ℝ → V) (hR : ∀ t u, R t u = L u + b t) (t dt : ℝ)
    (s s' : Sys ℝ V) :
    (update .rk3 R t dt s).sol - (update .rk3 R t dt s').sol = cubic L dt (s.sol - s'.sol) := by
  simp only [update, update3, eulerUpdate, nextSolution, Sys.residual, Sys.setTime, Sys.setSol, hR, cubic, map_add,
    map_smul, map_sub, smul_add, smul_sub]
  module

theorem run3_diff {R : ℝ → V → V} (L : V →ₗ[ℝ] V) (b : ℝ → V) (hR : ∀ t u, R t u = L u + b t) (t dt : ℝ) (N : Nat)
    (s s' : Sys ℝ V) :
    (run .rk3 R t dt N s).sol - (run .rk3 R t dt N s').sol = (cubic L dt)^[N] (s.sol - s'.sol) := by
  induction N with
  | zero => rfl
  | succ N ih =>
    rw [Function.iterate_succ_apply', ← ih]
    exact update3_diff L b hR _ dt _ _

end MiniCFD.Energy
