import Verif.Model.Shuffle
import Mathlib.Data.List.Forall2

/-
What a renumbering must do, stated without reference to how it is computed.
-/
namespace MiniCFD.Spec.Shuffle

/-- `f` and `g` (arrays of numbers) are mutually inverse renumberings of `0..n-1`. -/
structure Inverse (n : Nat) (f g : List Nat) : Prop where
  lenF : f.length = n
  lenG : g.length = n
  left : ∀ i, i < n → ∃ j, j < n ∧ f[i]? = some j ∧ g[j]? = some i
  right : ∀ j, j < n → ∃ i, i < n ∧ g[j]? = some i ∧ f[i]? = some j

/-- `order` lists items sorted by key, ties by original position. -/
def StablySorted {T : Type} [LT T] (key : List T) (order : List Nat) : Prop :=
  ∀ (i i' j j' : Nat) (k k' : T), i < i' → order[i]? = some j → order[i']? = some j' →
    key[j]? = some k → key[j']? = some k' → k < k' ∨ (k = k' ∧ j < j')

/-- The array `new` is `old` reordered: its item `i` is item `order[i]` of `old`. -/
def Reordered {α : Type} (order : List Nat) (old new : List α) : Prop :=
  new.length = old.length ∧
    ∀ (i j : Nat), order[i]? = some j → new[i]? = old[j]?

/-- Like `Reordered` on the window of `order.length` items from `off`; the rest is kept. -/
def ReorderedAt {α : Type} (off : Nat) (order : List Nat) (old new : List α) : Prop :=
  new.length = old.length ∧
    (∀ (i j : Nat), order[i]? = some j → new[off + i]? = old[off + j]?) ∧
    (∀ k, k < off ∨ off + order.length ≤ k → new[k]? = old[k]?)

/-- The value (coordinate, or any nodal data) seen by element `c` at its local node `k`,
through a flat 1-based connectivity table with `npe` nodes per element. -/
def nodeValue {α : Type} (npe : Nat) (conn : List Nat) (data : List α) (c k : Nat) :
    Option α := do
  let nid ← conn[npe * c + k]?
  if nid = 0 then none else data[nid - 1]?

/-- Elements keep their geometry: the new element `i` sees, node by node in the same
local order, what the old element `order[i]` saw, for every nodal quantity (coordinates
included) that was moved by the node order. -/
def ElementsKept (nodeOrder : List Nat) (npe : Nat) (conn conn' order : List Nat) : Prop :=
  ∀ (β : Type) (data data' : List β), Reordered nodeOrder data data' →
    ∀ (i c k : Nat), order[i]? = some c → k < npe →
      nodeValue npe conn' data' i k = nodeValue npe conn data c k

open MiniCFD.Shuffle (Sect Zone)

/-- The window of element ids (0-based) of a section. -/
def inWindow (s : Sect) (k : Nat) : Prop :=
  s.rangeMin - 1 ≤ k ∧ k < s.rangeMin - 1 + s.parts.length

/-- A zone as read from a valid CGNS file (and with one part number per node and
element): arrays have matching lengths, node ids are in range, element ranges of
different cell sections do not overlap and lie inside the cell fields. -/
structure WellFormed {α : Type} (zn : Zone α) : Prop where
  lenX : zn.x.length = zn.nodeParts.length
  lenY : zn.y.length = zn.nodeParts.length
  lenZ : zn.z.length = zn.nodeParts.length
  lenNodeFields : ∀ f ∈ zn.nodeFields, f.length = zn.nodeParts.length
  lenConn : ∀ s ∈ zn.sects, s.conn.length = s.parts.length * s.npe
  nodeIds : ∀ s ∈ zn.sects, ∀ nid ∈ s.conn, 1 ≤ nid ∧ nid ≤ zn.nodeParts.length
  rangePos : ∀ s ∈ zn.sects, s.isCell = true → 1 ≤ s.rangeMin
  fieldLen : ∀ s ∈ zn.sects, s.isCell = true → ∀ f ∈ zn.cellFields,
    s.rangeMin - 1 + s.parts.length ≤ f.length
  disjoint : zn.sects.Pairwise (fun s t => s.isCell = true → t.isCell = true →
    ∀ k, ¬ (inWindow s k ∧ inWindow t k))

/-- What is expected of one section. -/
def SectionKept {α : Type} (nodeOrder : List Nat) (fields fields' : List (List α))
    (s s' : Sect) : Prop :=
  s'.npe = s.npe ∧ s'.isCell = s.isCell ∧ s'.rangeMin = s.rangeMin ∧ s'.parts = s.parts ∧
  s'.conn.length = s.conn.length ∧
  ∃ order inverse, Inverse s.parts.length order inverse ∧ StablySorted s.parts order ∧
    ElementsKept nodeOrder s.npe s.conn s'.conn order ∧
    (s.isCell = true → ∀ (m : Nat) (f f' : List α), fields[m]? = some f → fields'[m]? = some f' →
      ∀ (i c : Nat), order[i]? = some c →
        f'[s.rangeMin - 1 + i]? = f[s.rangeMin - 1 + c]?)

/-- What is expected of a shuffled zone. -/
def ZoneKept {α : Type} (zn zn' : Zone α) : Prop :=
  ∃ order inverse, Inverse zn.nodeParts.length order inverse ∧
    StablySorted zn.nodeParts order ∧
    Reordered order zn.x zn'.x ∧ Reordered order zn.y zn'.y ∧ Reordered order zn.z zn'.z ∧
    List.Forall₂ (Reordered order) zn.nodeFields zn'.nodeFields ∧
    List.Forall₂ (SectionKept order zn.cellFields zn'.cellFields) zn.sects zn'.sects ∧
    List.Forall₂ (fun f f' => f'.length = f.length ∧
      ∀ k, (∀ s ∈ zn.sects, s.isCell = true → ¬ inWindow s k) → f'[k]? = f[k]?)
      zn.cellFields zn'.cellFields

end MiniCFD.Spec.Shuffle
