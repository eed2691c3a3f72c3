import Verif.Props.PyExpansion

/-! Specification for the wave numbers: grids of equal elements. -/

namespace MiniCFD.Spec.PyWave
open MiniCFD.PyQuad MiniCFD.PyExpansion
open MiniCFD.Spec.Gauss (ExactTo)

/-- A class of expansions together with what `roots_legendre` returns. -/
inductive Maker (p : ℕ) where
  | uniform (rule : Rule p)
  | legendreRoots (rule : Rule p)
  | lobatto
  | modal (rule : Rule p)

namespace Maker
variable {p : ℕ}

/-- The expansion of the class on an element. -/
noncomputable def make (c : Coordinate) : Maker p → Option (Setup p)
  | uniform rule => onUniformRoots c rule
  | legendreRoots rule => onLegendreRoots c rule
  | lobatto => onLobattoRoots p c
  | modal rule => PyExpansion.modal c rule

/-- `roots_legendre` returns rules of Gauss. -/
def Exact : Maker p → Prop
  | uniform rule => ExactTo rule.apply (2 * p + 1)
  | legendreRoots rule => ExactTo rule.apply (2 * p + 1)
  | lobatto => True
  | modal rule => ExactTo rule.apply (2 * p + 1)

def Nodal : Maker p → Prop
  | modal _ => False
  | _ => True

end Maker

/-- Elements of one class and one length. -/
structure Equal {p m : ℕ} (maker : Maker p) (h : ℝ) (co : Fin m → Coordinate) (setups : Fin m → Setup p) : Prop where
  length : ∀ i, (co i).xRight - (co i).xLeft = h
  made : ∀ i, maker.make (co i) = some (setups i)

end MiniCFD.Spec.PyWave
