import Verif.Model.SortNodes
import Verif.Spec.SortNodes
import Mathlib.Data.List.Nodup
import Mathlib.Tactic.Common

/-! # Sorting commutes with renumbering and does not depend on the order given -/

namespace MiniCFD.SortNodes

open MiniCFD.Shape

/-- The number of the node with index `c`. -/
def number (cell : List Nat) (c : Nat) : Nat := cell.getD c 0

variable {cell face s : List Nat}

theorem number_lt {c : Nat} (h : c < cell.length) : cell[c]? = some (number cell c) := by
  simp [number, List.getD_eq_getElem?_getD, List.getElem?_eq_getElem h]

theorem number_inj (hc : cell.Nodup) {a b : Nat} (ha : a < cell.length) (hb : b < cell.length)
    (h : number cell a = number cell b) : a = b := by
  have h1 : cell[a]? = cell[b]? := by rw [number_lt ha, number_lt hb, h]
  exact (List.getElem?_inj ha hc).1 h1

theorem contains_iff (hc : cell.Nodup) (hs : ∀ c ∈ s, c < cell.length)
    (hf : face.Perm (s.map (number cell))) {c : Nat} (h : c < cell.length) :
    face.contains (number cell c) = s.contains c := by
  rw [Bool.eq_iff_iff, List.contains_iff_mem, List.contains_iff_mem, hf.mem_iff, List.mem_map]
  constructor
  · rintro ⟨a, ha, hac⟩
    rwa [← number_inj hc (hs a ha) h hac]
  · exact fun h' => ⟨c, h', rfl⟩

theorem flags_eq (hc : cell.Nodup) (hs : ∀ c ∈ s, c < cell.length)
    (hf : face.Perm (s.map (number cell))) :
    flags cell face = flags (List.range cell.length) s := by
  refine List.ext_getElem? fun c => ?_
  simp only [flags, List.getElem?_map]
  by_cases h : c < cell.length
  · rw [number_lt h, List.getElem?_range h, Option.map_some, Option.map_some, contains_iff hc hs hf h]
  · rw [List.getElem?_eq_none (Nat.le_of_not_lt h), List.getElem?_eq_none (by simpa using h)]
    rfl

theorem findIdx_number (hc : cell.Nodup) (m : Nat) {c : Nat} (h : c < cell.length) :
    (cell.take m).findIdx? (· == number cell c) = if c < m then some c else none := by
  split
  · rename_i hm
    have hl : c < (cell.take m).length := by rw [List.length_take]; omega
    rw [List.findIdx?_eq_some_iff_getElem]
    have hget : ∀ j (hj : j < (cell.take m).length), (cell.take m)[j] = number cell j := by
      intro j hj
      have hj' : j < cell.length := by rw [List.length_take] at hj; omega
      have := number_lt hj'
      rw [List.getElem?_eq_getElem hj'] at this
      rw [List.getElem_take]
      exact Option.some.inj this
    refine ⟨hl, by rw [hget c hl]; exact beq_self_eq_true _, fun j hj => ?_⟩
    rw [hget]
    intro h'
    have := number_inj hc (by omega) h (beq_iff_eq.1 h')
    omega
  · rename_i hm
    rw [List.findIdx?_eq_none_iff]
    intro x hx
    rw [beq_eq_false_iff_ne]
    rintro rfl
    obtain ⟨j, hj, hj'⟩ := List.getElem_of_mem hx
    rw [List.length_take] at hj
    have hj2 : j < cell.length := by omega
    rw [List.getElem_take] at hj'
    have := number_lt hj2
    rw [List.getElem?_eq_getElem hj2, hj'] at this
    have := number_inj hc hj2 h (Option.some.inj this).symm
    omega

theorem number_range {n c : Nat} (h : c < n) : number (List.range n) c = c := by
  have := number_lt (cell := List.range n) (c := c) (by simpa using h)
  rw [List.getElem?_range h] at this
  exact (Option.some.inj this).symm

theorem marks_perm (hc : cell.Nodup) (hs : ∀ c ∈ s, c < cell.length)
    (hf : face.Perm (s.map (number cell))) (m : Nat) :
    (marks cell m face).Perm (marks (List.range cell.length) m s) := by
  refine (hf.map _).trans ?_
  rw [List.map_map]
  refine List.Perm.of_eq (List.map_congr_left fun c h => ?_)
  have h1 := findIdx_number (cell := List.range cell.length) List.nodup_range m (c := c)
    (by simpa using hs c h)
  rw [number_range (hs c h)] at h1
  rw [Function.comp_apply, findIdx_number hc m (hs c h), h1]

theorem contains_perm {α : Type*} [BEq α] [LawfulBEq α] {l l' : List α} (h : l.Perm l') (a : α) :
    l.contains a = l'.contains a := by
  rw [Bool.eq_iff_iff, List.contains_iff_mem, List.contains_iff_mem, h.mem_iff]

theorem pick_eq (cell row : List Nat) :
    pick cell row = (pick (List.range cell.length) row).map (List.map (number cell)) := by
  induction row with
  | nil => rfl
  | cons c row ih =>
    unfold pick at ih ⊢
    rw [List.mapM_cons, List.mapM_cons, ih]
    by_cases h : c < cell.length
    · rw [number_lt h, List.getElem?_range h]
      cases List.mapM (fun x => (List.range cell.length)[x]?) row <;> rfl
    · rw [List.getElem?_eq_none (Nat.le_of_not_lt h), List.getElem?_eq_none (by simpa using h)]
      rfl

theorem bind_pick (o : Option (List Nat)) (cell : List Nat) :
    (o.bind fun row => pick cell row)
      = (o.bind fun row => pick (List.range cell.length) row).map (List.map (number cell)) := by
  cases o with
  | none => rfl
  | some row => exact pick_eq cell row

theorem cell4 (cell : List Nat) :
    cell[4]? = (List.range cell.length)[4]?.map (number cell) := by
  by_cases h : 4 < cell.length
  · rw [number_lt h, List.getElem?_range h]; rfl
  · rw [List.getElem?_eq_none (Nat.le_of_not_lt h), List.getElem?_eq_none (by simpa using h)]
    rfl

/-- Sorting a face of a renumbered cell is sorting the face and renumbering; the order in which the nodes
of the face are given does not matter. -/
theorem sortNodes_natural (k : Kind) (hc : cell.Nodup) (hs : ∀ c ∈ s, c < cell.length)
    (hf : face.Perm (s.map (number cell))) (hl : k = .pyramid5 → s.length ≤ 4) :
    sortNodes k cell face
      = (sortNodes k (List.range cell.length) s).map (List.map (number cell)) := by
  have hlen : face.length = s.length := by rw [hf.length_eq, List.length_map]
  have h1 := flags_eq hc hs hf
  have h2 : ∀ m c, (marks cell m face).contains (some c)
      = (marks (List.range cell.length) m s).contains (some c) :=
    fun m c => contains_perm (marks_perm hc hs hf m) _
  have h3 : pyramidId cell face = pyramidId (List.range cell.length) s := by
    simp only [pyramidId, h2]
  have h4 : triangleId cell face = triangleId (List.range cell.length) s := by
    unfold triangleId
    by_cases h : 4 < cell.length
    · rw [number_lt h, List.getElem?_range h, Option.map_some, Option.map_some, contains_iff hc hs hf h]
    · rw [List.getElem?_eq_none (Nat.le_of_not_lt h), List.getElem?_eq_none (by simpa using h)]
      rfl
  have h5 : quadrangleId cell face = quadrangleId (List.range cell.length) s := by
    simp only [quadrangleId, ((marks_perm hc hs hf 3).map fun c => c.getD 0).sum_eq]
  have h6 : hexahedronId cell face = hexahedronId (List.range cell.length) s := by
    simp only [hexahedronId, h1]
  have hw : ∀ a b t q, wedge a b t q cell face
      = (wedge a b t q (List.range cell.length) s).map (List.map (number cell)) := by
    intro a b t q
    simp only [wedge, hlen, h4, h5, Option.bind_eq_bind]
    split
    · cases triangleId (List.range cell.length) s with
      | none => rfl
      | some i => exact bind_pick _ _
    · split
      · cases quadrangleId (List.range cell.length) s with
        | none => rfl
        | some i => exact bind_pick _ _
      · rfl
  have hh : ∀ m, hexahedron m cell face
      = (hexahedron m (List.range cell.length) s).map (List.map (number cell)) := by
    intro m
    simp only [hexahedron, hlen, h6, Option.bind_eq_bind]
    split
    · cases hexahedronId (List.range cell.length) s with
      | none => rfl
      | some i =>
        simp only [Option.bind_some]
        cases hexahedronFaces[i]? with
        | none => rfl
        | some row => exact pick_eq _ _
    · rfl
  cases k
  case tetrahedron4 =>
    simp only [sortNodes, tetrahedron4, hlen, h1, Option.bind_eq_bind]
    split
    · cases scan 0 0 0 (flags (List.range cell.length) s) with
      | none => rfl
      | some sum =>
        simp only [Option.bind_some]
        split
        · exact bind_pick _ _
        · rfl
    · rfl
  case tetrahedron10 =>
    simp only [sortNodes, tetrahedron10, hlen, h2, Option.bind_eq_bind]
    split
    · cases tetrahedron10Id fun c => (marks (List.range cell.length) 4 s).contains (some c) with
      | none => rfl
      | some i => exact bind_pick _ _
    · rfl
  case pyramid5 =>
    simp only [sortNodes, pyramid5, hlen, h3, Option.bind_eq_bind]
    have hl := hl rfl
    split
    · cases pyramidId (List.range cell.length) s with
      | none => rfl
      | some i => exact bind_pick _ _
    · split
      · rw [List.drop_eq_nil_of_le (by omega : face.length ≤ 4), List.drop_eq_nil_of_le hl, pick_eq]
        cases pick (List.range cell.length) [0, 3, 2, 1] with
        | none => rfl
        | some b => simp
      · rfl
  case pyramid13 =>
    simp only [sortNodes, pyramid13, hlen, h3, Option.bind_eq_bind]
    split
    · cases pyramidId (List.range cell.length) s with
      | none => rfl
      | some i => exact bind_pick _ _
    · split
      · exact pick_eq _ _
      · rfl
  case pyramid14 =>
    simp only [sortNodes, pyramid14, hlen, h3, Option.bind_eq_bind]
    split
    · cases pyramidId (List.range cell.length) s with
      | none => rfl
      | some i => exact bind_pick _ _
    · split
      · exact pick_eq _ _
      · rfl
  case wedge6 => exact hw _ _ _ _
  case wedge15 => exact hw _ _ _ _
  case wedge18 => exact hw _ _ _ _
  case hexahedron8 => exact hh _
  case hexahedron20 => exact hh _
  case hexahedron26 => exact hh _
  case hexahedron27 => exact hh _
  all_goals rfl

end MiniCFD.SortNodes
