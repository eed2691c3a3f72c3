import Verif.Spec.Sections
import Verif.Model.Boundary

/-
What boundary conditions mean, in terms of the cells of a zone.
-/
namespace MiniCFD.Spec.Boundary
open MiniCFD.Sections MiniCFD.Spec.Sections

/-- Cell number `n` of the zone is `c`. -/
def At (E : Elem) (secs : List Sect) (n : Nat) (c : Cell) : Prop :=
  ∃ s ∈ secs, ∃ cs, Holds E s cs ∧ s.first ≤ n ∧ cs[n - s.first]? = some c

/-- The numbers from `lo` to `hi` are those of `cells`, in this order. -/
def Covers (E : Elem) (secs : List Sect) (lo hi : Nat) (cells : List Cell) : Prop :=
  hi + 1 = lo + cells.length ∧ ∀ i c, cells[i]? = some c → At E secs (lo + i) c

/-- No cell number belongs to two sections. -/
def Disjoint (secs : List Sect) : Prop :=
  ∀ s ∈ secs, ∀ t ∈ secs, ∀ n, s.first ≤ n → n ≤ s.last → t.first ≤ n → n ≤ t.last → s = t

/-- A boundary condition of the file is about one section: it has the numbers of the section, and among all sections
only the name of this one ends in the name of the condition. -/
def Names (secs : List Sect) (name : List Nat) (lo hi : Nat) (s : Sect) : Prop :=
  s ∈ secs ∧ lo = s.first ∧ hi = s.last ∧ name <:+ s.name ∧ ∀ t ∈ secs, name <:+ t.name → t = s

end MiniCFD.Spec.Boundary
