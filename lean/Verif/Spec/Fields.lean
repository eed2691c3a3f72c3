import Verif.Model.Fields

namespace MiniCFD.Spec.Fields
open MiniCFD.Fields

variable {N V : Type}

/-- One solution per (name, location), one field per name, ids that follow positions, and data of
the right length. -/
structure Tidy (z : Zone N V) : Prop where
  keys : ∀ (i j : Nat) a b, z.solns[i]? = some a → z.solns[j]? = some b →
    a.name = b.name → a.loc = b.loc → i = j
  ids : ∀ (i : Nat) a, z.solns[i]? = some a → a.id = i + 1
  fieldKeys : ∀ (h : Nat) s, z.solns[h]? = some s → ∀ (i j : Nat) a b, s.fields[i]? = some a →
    s.fields[j]? = some b → a.name = b.name → i = j
  fieldIds : ∀ (h : Nat) s, z.solns[h]? = some s →
    ∀ (i : Nat) a, s.fields[i]? = some a → a.id = i + 1
  sizes : ∀ (h : Nat) s, z.solns[h]? = some s → ∀ (i : Nat) a, s.fields[i]? = some a →
    a.data.length = if s.loc = .cellCenter then z.nCells else z.nNodes

/-- What reference `h` shows of a solution that later calls must not change. -/
def SolnAt (z : Zone N V) (h : Nat) (name : N) (loc : Loc) : Prop :=
  ∃ s, z.solns[h]? = some s ∧ s.name = name ∧ s.loc = loc

/-- References `(h, k)` lead to a field of that name with that data. -/
def FieldAt (z : Zone N V) (h k : Nat) (name : N) (data : List V) : Prop :=
  ∃ s f, z.solns[h]? = some s ∧ s.fields[k]? = some f ∧ f.name = name ∧ f.data = data

/-- The writes of a history that go through `(h, k)`, applied to `data` in order. -/
def applyWrites (h k : Nat) : List (Op N V) → List V → List V
  | [], d => d
  | .write h' k' i v :: ops, d =>
    applyWrites h k ops (if h' = h ∧ k' = k then d.set (i - 1) v else d)
  | _ :: ops, d => applyWrites h k ops d

end MiniCFD.Spec.Fields
