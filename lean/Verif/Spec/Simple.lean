import Verif.Model.Simple
import Mathlib.Order.Interval.Set.Basic

namespace MiniCFD.Spec.Simple
open MiniCFD.Simple

/-- `f` is the Godunov flux of the convex or concave flux function `F`: least flux between the
states of an expanding pair, greatest flux between those of a compressing pair. -/
def IsGodunov (F : ℝ → ℝ) (left right f : ℝ) : Prop :=
  (left ≤ right → IsLeast (F '' Set.Icc left right) f) ∧
  (right ≤ left → IsGreatest (F '' Set.Icc right left) f)

/-- `w` is a wave of the linear system with matrix `A`, moving at speed `s`. -/
def Wave2 (m : M2) (s : ℝ) (w : V2) : Prop := m.app w = ⟨s * w.x, s * w.y⟩

/-- Linear combinations of columns. -/
def V2.add (v w : V2) : V2 := ⟨v.x + w.x, v.y + w.y⟩
def V2.scale (s : ℝ) (w : V2) : V2 := ⟨s * w.x, s * w.y⟩
def V2.sum (ws : List V2) : V2 := ws.foldr V2.add ⟨0, 0⟩

/-- The matrix with all entries negated: what `Rotate` produces for the reversed normal. -/
def M2.neg (m : M2) : M2 := ⟨-m.a, -m.b, -m.c, -m.d⟩

/-- The matrix has real eigenvalues. -/
def Hyperbolic (m : M2) : Prop := 0 ≤ (m.a - m.d) * (m.a - m.d) + 4 * (m.b * m.c)

/-- The jump `right - left` is split into waves, each given with its speed. -/
def SplitsJump (m : M2) (ws : List (ℝ × V2)) (left right : V2) : Prop :=
  (∀ p ∈ ws, Wave2 m p.1 p.2) ∧ V2.add left (V2.sum (ws.map (·.2))) = right

/-- The state on the face of the exact self-similar solution: cross every wave that moves left. -/
noncomputable def stateOnFace (ws : List (ℝ × V2)) (left : V2) : V2 :=
  V2.add left (V2.sum ((ws.filter fun p => p.1 < 0).map (·.2)))

open Matrix in
def Wave {K : Nat} (A : Matrix (Fin K) (Fin K) ℝ) (s : ℝ) (w : Fin K → ℝ) : Prop :=
  A *ᵥ w = s • w

open Matrix in
/-- What a successful real eigendecomposition provides. -/
structure Decomposed {K : Nat} (A rows cols : Matrix (Fin K) (Fin K) ℝ) (vals : Fin K → ℝ) :
    Prop where
  left_inv : cols * rows = 1
  eigen : ∀ k, A *ᵥ (fun i => rows i k) = vals k • fun i => rows i k

open Matrix in
/-- Decomposition of a jump into finitely many waves with speeds. -/
def SplitsJumpK {K n : Nat} (A : Matrix (Fin K) (Fin K) ℝ) (speed : Fin n → ℝ)
    (wave : Fin n → Fin K → ℝ) (left right : Fin K → ℝ) : Prop :=
  (∀ j, Wave A (speed j) (wave j)) ∧ left + ∑ j, wave j = right

/-- The state on the face: cross every wave that moves left. -/
noncomputable def stateOnFaceK {K n : Nat} (speed : Fin n → ℝ) (wave : Fin n → Fin K → ℝ)
    (left : Fin K → ℝ) : Fin K → ℝ :=
  left + ∑ j, if speed j < 0 then wave j else 0

end MiniCFD.Spec.Simple
