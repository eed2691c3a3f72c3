import Verif.Model.Sections

namespace MiniCFD.Spec.Sections
open MiniCFD.Sections

/-- A cell: its type and its nodes. -/
abbrev Cell := Nat × List Nat

/-- Where the rows of a mixed section start. -/
def starts : Nat → List Cell → List Nat
  | k, [] => [k]
  | k, c :: cs => k :: starts (k + 1 + c.2.length) cs

/-- Section `s` holds the cells `cs` in this order. -/
structure Holds (E : Elem) (s : Sect) (cs : List Cell) : Prop where
  first : 1 ≤ s.first
  count : s.last + 1 = s.first + cs.length
  sizes : ∀ c ∈ cs, c.1 ≠ E.mixed ∧ c.2.length = E.npe c.1
  plain : s.type ≠ E.mixed → (∀ c ∈ cs, c.1 = s.type) ∧ s.conn = cs.flatMap Prod.snd
  mix : s.type = E.mixed → s.conn = cs.flatMap (fun c => c.1 :: c.2) ∧ s.offs = starts 0 cs

/-- Element types have at least one node. -/
def PosNpe (E : Elem) : Prop := ∀ t, t ≠ E.mixed → 0 < E.npe t

/-- The same section up to its place in the zone. -/
def SameButPlace (a b : Sect) : Prop :=
  a.name = b.name ∧ a.type = b.type ∧ a.dim = b.dim ∧ a.conn = b.conn ∧ a.offs = b.offs ∧
    a.count = b.count

/-- Ranges are contiguous from `next` on and ids count up from `i`. -/
def Tiled : List Sect → Nat → Nat → Prop
  | [], _, _ => True
  | s :: ss, i, next => s.id = i ∧ s.first = next ∧ s.last + 1 = next + s.count ∧
      Tiled ss (i + 1) (s.last + 1)

end MiniCFD.Spec.Sections
