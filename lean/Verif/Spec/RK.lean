import Mathlib.Analysis.Calculus.Deriv.Basic
import Mathlib.Analysis.Normed.Operator.Basic
import Mathlib.Algebra.BigOperators.Group.Finset.Basic
import Mathlib.Algebra.Module.LinearMap.End
import Mathlib.Data.Nat.Factorial.Basic
import Mathlib.Algebra.BigOperators.Intervals

/-! What a time stepper of a given order should do, stated without reference to the stepper. -/

namespace MiniCFD.Spec.RK
open Finset

/-- The exponential series of `dt * A` cut after the power `p`, applied to `u`. -/
def expSeries {K V : Type*} [Field K] [AddCommGroup V] [Module K V] (p : ℕ) (dt : K)
    (A : V →ₗ[K] V) (u : V) : V :=
  ∑ i ∈ range (p + 1), (dt ^ i / (i.factorial : K)) • (A ^ i) u

/-- A subset closed under convex combinations with weights from the field. -/
def ConvexSet {V : Type*} [AddCommGroup V] [Module ℝ V] (S : V → Prop) : Prop :=
  ∀ u v : V, S u → S v → ∀ w : ℝ, 0 ≤ w → w ≤ 1 → S (w • u + (1 - w) • v)

/-- `d 0` solves `y' = R t y` on `[a,b]`, and has `p + 1` successive derivatives `d 1 … d (p+1)`
there, all bounded. -/
structure SmoothSolution {E : Type*} [NormedAddCommGroup E] [NormedSpace ℝ E]
    (R : ℝ → E → E) (a b : ℝ) (p : ℕ) (d : ℕ → ℝ → E) : Prop where
  ode : ∀ t ∈ Set.Icc a b, d 1 t = R t (d 0 t)
  deriv : ∀ i ≤ p, ∀ t ∈ Set.Icc a b, HasDerivWithinAt (d i) (d (i + 1) t) (Set.Icc a b) t
  bounded : ∃ M, ∀ i ≤ p + 1, ∀ t ∈ Set.Icc a b, ‖d i t‖ ≤ M

/-- `R` is Lipschitz in its second argument, uniformly in time. -/
def Lip {E : Type*} [NormedAddCommGroup E] (R : ℝ → E → E) (L : ℝ) : Prop :=
  ∀ t u v, ‖R t u - R t v‖ ≤ L * ‖u - v‖

/-- Along the curve `y`, `R` has the bounded linearisation `J` with a quadratic remainder, and `J`
is Lipschitz in time. -/
structure Linearisable {E : Type*} [NormedAddCommGroup E] [NormedSpace ℝ E]
    (R : ℝ → E → E) (a b : ℝ) (y : ℝ → E) (J : ℝ → E →L[ℝ] E) : Prop where
  quad : ∃ Q, ∀ t ∈ Set.Icc a b, ∀ v, ‖R t v - R t (y t) - J t (v - y t)‖ ≤ Q * ‖v - y t‖ ^ 2
  bounded : ∃ L, ∀ t ∈ Set.Icc a b, ‖J t‖ ≤ L
  lip : ∃ L, ∀ s ∈ Set.Icc a b, ∀ t ∈ Set.Icc a b, ‖J s - J t‖ ≤ L * |s - t|

end MiniCFD.Spec.RK
