import Verif.Model.Checkpoint

/-! Spec for C75: a solution is a list of numbers for each cell of each zone. -/

namespace MiniCFD.Spec.Checkpoint

open MiniCFD.Checkpoint

variable {V : Type}

/-- A solution: the `k` numbers of cell `c` of zone `z`, whoever owns the cell. -/
abbrev Solution (V : Type) (k : Nat) := Nat → Nat → Fin k → V

/-- A section as the constructor makes it and as nothing later changes it: vectors of the right lengths. -/
structure Full (k : Nat) (s : Sect V) : Prop where
  cells : s.cells.length = s.size
  coeff : ∀ c ∈ s.cells, c.length = k
  fields : s.fields.length = k
  field : ∀ f ∈ s.fields, f.length = s.size

/-- Section `i` of zone `z` of a rank. -/
def IsSect (r : Rank V) (z i : Nat) (s : Sect V) : Prop := ∃ zone, r.cells.find z = some zone ∧ zone.find i = some s

/-- Zones are numbered 1, 2, ... and, in each zone, so are the sections. -/
structure Numbered (k : Nat) (r : Rank V) : Prop where
  zones : ∀ z, 1 ≤ z → z ≤ r.zones → ∃ zone, r.cells.find z = some zone ∧
    ∀ i, (1 ≤ i ∧ i ≤ zone.size) ↔ ∃ s, zone.find i = some s
  full : ∀ z i s, 1 ≤ z → z ≤ r.zones → IsSect r z i s → Full k s

/-- The coefficients of the cells of a rank are those of a solution. -/
def Holds {k : Nat} (g : Solution V k) (r : Rank V) : Prop :=
  ∀ z i s, 1 ≤ z → z ≤ r.zones → IsSect r z i s → ∀ j, j < s.size → s.cells[j]? = some (List.ofFn (g z (s.head + j)))

/-- The ranks have the same zones and in each zone the same number of sections. -/
def Alike (ranks : List (Rank V)) : Prop :=
  ∀ r ∈ ranks, ∀ r' ∈ ranks, r.zones = r'.zones ∧
    ∀ z, 1 ≤ z → z ≤ r.zones → (r.cells.find z).map Map.size = (r'.cells.find z).map Map.size

/-- Cell `c` of zone `z` belongs to section `i` of one of the ranks. -/
def Owned (ranks : List (Rank V)) (z i c : Nat) : Prop :=
  ∃ r ∈ ranks, ∃ s, IsSect r z i s ∧ s.head ≤ c ∧ c < s.head + s.size

/-- The ranges of all ranks lie in the zones, which have `n z` cells. -/
def InZones (n : Nat → Nat) (ranks : List (Rank V)) : Prop :=
  ∀ r ∈ ranks, ∀ z i s, 1 ≤ z → z ≤ r.zones → IsSect r z i s → 0 < s.size → 1 ≤ s.head ∧ s.head + s.size ≤ n z + 1

/-- No cell belongs to two sections, of the same rank or of two ranks. -/
def Disjoint' (ranks : List (Rank V)) : Prop :=
  ∀ (p q : Nat) r r' z i i' s s' c, ranks[p]? = some r → ranks[q]? = some r' → 1 ≤ z → z ≤ r.zones →
    IsSect r z i s → IsSect r' z i' s' → s.head ≤ c → c < s.head + s.size → s'.head ≤ c → c < s'.head + s'.size →
    p = q ∧ i = i'

end MiniCFD.Spec.Checkpoint
