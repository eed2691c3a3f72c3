import Verif.Spec.Gas

/-!
# The second law

No gas becomes colder than by adiabatic expansion: `p / ρ ^ γ` does not fall below the least value which it has had. What
is asked of the solver, the boundaries and the step for that, in terms of the functions which the columns stand for.
-/

namespace MiniCFD.Spec.Entropy

open MiniCFD.Gas MiniCFD.Residual MiniCFD.Projection MiniCFD.Ortho MiniCFD.Euler MiniCFD.Exact MiniCFD.Spec.Euler MiniCFD.Spec.Positive MiniCFD.Spec.Gas

variable {Pt : Type} {d : Nat}

/-- `p / ρ ^ γ`. -/
noncomputable def entropy (γ : ℝ) (c : Tup d) : ℝ := pressure γ c / c.mass ^ γ

/-- A gas of at least this entropy. -/
def Warm (γ s0 : ℝ) (c : Tup d) : Prop := Admissible γ c ∧ s0 ≤ entropy γ c

/-- The same in all cells. -/
def AllWarm (m : Mesh Pt 0) (γ s0 : ℝ) (u : Fin m.count → Coeff 5 0) : Prop := ∀ p x, Warm γ s0 (state m p (u p) x)

/-- What the exact solver does (exact.hpp:69-160) once it has found the star pressure `p`. -/
noncomputable def given (γ p : ℝ) (l r : Tup d) : Tup d :=
  primFlux γ (setPassive (ordinary γ (P3.of l) (P3.of r) p).1 (ordinary γ (P3.of l) (P3.of r) p).2 l r)

/-- The answer of an exact solver whose iteration stops at the root, not near it. -/
def Ideal (γ : ℝ) (F : Frame d) (l r f : Tup d) : Prop :=
  ∃ p, 0 < p ∧ pressureFn γ (P3.of (globalToNormal F (toPrim γ l))) (P3.of (globalToNormal F (toPrim γ r))) p = 0 ∧
    f = upwind γ (given γ p) F l r

/-- Such solvers on all faces. -/
def Ideally (m : Mesh Pt 0) (γ : ℝ) : Prop :=
  ∀ f ∈ m.faces, ∀ q ∈ f.2.2, ∀ l r, Admissible γ l → Admissible γ r → Touch γ (q.frame 0) l r →
    Ideal γ q.frame l r (q.solver l r)

/-- Gas does not move towards walls or away from them. -/
def Slides (m : Mesh Pt 0) (c : Conditions Pt 5) (u : Fin m.count → Coeff 5 0) : Prop :=
  ∀ name ∈ c.solidWall, OnRim m name fun h q => velAlong (q.frame 0) (state m h (u h) q.coord) = 0

/-- What comes in is warm, and so fast that no wave gets out against it, whatever the pressure inside. -/
def Streams (m : Mesh Pt 0) (γ s0 : ℝ) (c : Conditions Pt 5) (t : ℝ) (u : Fin m.count → Coeff 5 0) : Prop :=
  ∀ nf ∈ c.supersonicInlet, OnRim m nf.1 fun h q =>
    Warm γ s0 (tup (nf.2 q.coord t)) ∧
    Touch γ (q.frame 0) (state m h (u h) q.coord) (tup (nf.2 q.coord t)) ∧
    velAlong (q.frame 0) (tup (nf.2 q.coord t)) +
      acoustic γ (impact γ (q.frame 0) (state m h (u h) q.coord) (tup (nf.2 q.coord t))) (tup (nf.2 q.coord t)) ≤ 0

/-- `α` is at least the speed of the gas and of the acoustic waves on both sides of faces, and on the inner side of
inlets; gases on both sides of faces touch. -/
structure Spans (m : Mesh Pt 0) (γ : ℝ) (c : Conditions Pt 5) (t : ℝ) (u : Fin m.count → Coeff 5 0) (α : Site Pt → ℝ) :
    Prop where
  touch : ∀ f ∈ m.faces, ∀ q ∈ f.2.2,
    Touch γ (q.frame 0) (state m f.1 (u f.1) q.coord) (state m f.2.1 (u f.2.1) q.coord)
  left : ∀ f ∈ m.faces, ∀ q ∈ f.2.2,
    reach γ (impact γ (q.frame 0) (state m f.1 (u f.1) q.coord) (state m f.2.1 (u f.2.1) q.coord)) (q.frame 0)
      (state m f.1 (u f.1) q.coord) ≤ α q
  right : ∀ f ∈ m.faces, ∀ q ∈ f.2.2,
    reach γ (impact γ (q.frame 0) (state m f.1 (u f.1) q.coord) (state m f.2.1 (u f.2.1) q.coord)) (q.frame 0)
      (state m f.2.1 (u f.2.1) q.coord) ≤ α q
  wall : ∀ name ∈ c.solidWall, OnRim m name fun _ q => 0 ≤ α q
  inlet : ∀ nf ∈ c.supersonicInlet, OnRim m nf.1 fun h q =>
    reach γ (impact γ (q.frame 0) (state m h (u h) q.coord) (tup (nf.2 q.coord t))) (q.frame 0)
      (state m h (u h) q.coord) ≤ α q
  outlet : ∀ name ∈ c.supersonicOutlet, OnRim m name fun _ q => 0 ≤ α q

/-- The step `dt` fits the state `u` at time `t`. -/
def Suits (m : Mesh Pt 0) (γ s0 : ℝ) (c : Conditions Pt 5) (dt t : ℝ) (u : Fin m.count → Coeff 5 0) : Prop :=
  Slides m c u ∧ Streams m γ s0 c t u ∧ ∃ α, Spans m γ c t u α ∧ Courant m c dt α

end MiniCFD.Spec.Entropy
