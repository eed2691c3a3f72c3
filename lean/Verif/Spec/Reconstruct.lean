import Verif.Model.Reconstruct

namespace MiniCFD.Spec.Reconstruct

variable {V : Type}

/-- The limiter looks only at a cell and its neighbours. -/
def Local (nbr : Nat → List Nat) (trouble : Nat → (Nat → V) → Bool) (lim : Nat → (Nat → V) → V) :
    Prop :=
  ∀ c s s', s c = s' c → (∀ j ∈ nbr c, s j = s' j) → trouble c s = trouble c s' ∧ lim c s = lim c s'

/-- The limiter pass on the whole mesh at once: every troubled cell is replaced, all from the
same old state. -/
def whole (trouble : Nat → (Nat → V) → Bool) (lim : Nat → (Nat → V) → V) (s : Nat → V) : Nat → V :=
  fun c => if trouble c s then lim c s else s c

/-- How the cells of one rank are grouped (part.hpp:818-825, 966-973): inner cells have only
local neighbours; the neighbours of an inter cell are local or ghost cells. -/
structure Groups (nbr : Nat → List Nat) (inner inter ghosts : List Nat) : Prop where
  nodupInner : inner.Nodup
  nodupInter : inter.Nodup
  disj : ∀ c ∈ inner, c ∉ inter
  noGhost : ∀ c, c ∈ inner ∨ c ∈ inter → c ∉ ghosts
  innerNbr : ∀ c ∈ inner, ∀ j ∈ nbr c, j ∈ inner ∨ j ∈ inter
  interNbr : ∀ c ∈ inter, ∀ j ∈ nbr c, j ∈ inner ∨ j ∈ inter ∨ j ∈ ghosts

end MiniCFD.Spec.Reconstruct
