import Verif.Lemmas.Partition
import Verif.Props.Shuffle

/-!
C05 (a node belongs to a part that uses it) and C06 (part slices cover the mesh exactly once).
-/
namespace MiniCFD.Partition
open MiniCFD.Spec.Partition MiniCFD.Spec.Shuffle

/-- **C05.** On a valid mesh whose cells have parts below `nParts`, `GetNodeParts` makes no
invalid access; a node used by some cell gets the smallest part among its users (hence an
existing part that uses it); a node used by no cell gets `nParts`. -/
theorem getNodeParts_spec (ptr idx cellParts : List Nat) (nNodes nParts : Nat)
    (hv : ValidMesh ptr idx cellParts.length nNodes) (hp : ∀ p ∈ cellParts, p < nParts) :
    ∃ parts, getNodeParts ptr idx nNodes cellParts nParts = some parts ∧
      parts.length = nNodes ∧
      ∀ n < nNodes,
        ((∃ i < cellParts.length, Uses ptr idx i n) →
          ∃ p < nParts, parts[n]? = some p ∧ IsSmallestUser ptr idx cellParts n p) ∧
        ((¬ ∃ i < cellParts.length, Uses ptr idx i n) → parts[n]? = some nParts) := by
  have hle : ∀ a ∈ ptr, a ≤ idx.length := by
    have hmono : ∀ k i a b : Nat, ptr[i]? = some a → ptr[i + k]? = some b → a ≤ b := by
      intro k
      induction k with
      | zero => intro i a b ha hb; rw [Nat.add_zero, ha] at hb; cases hb; exact le_refl _
      | succ k ih =>
        intro i a b ha hb
        have hlt := (List.getElem?_eq_some_iff.1 hb).1
        have hc : ptr[i + 1]? = some ptr[i + 1] := by simp
        exact le_trans (hv.mono i _ _ ha hc)
          (ih (i + 1) _ b hc (by rw [show i + 1 + k = i + (k + 1) by omega]; exact hb))
    intro a ha
    obtain ⟨i, hi, rfl⟩ := List.getElem_of_mem ha
    have hlen := hv.len
    have hlast : ptr[cellParts.length]? = some ptr[cellParts.length] := by simp
    refine le_trans (hmono (cellParts.length - i) i _ _ (by simp) ?_) (hv.last _ hlast)
    rw [Nat.add_sub_cancel' (by omega)]; exact hlast
  obtain ⟨parts, h1, h2, h3⟩ := cellLoop_spec (nParts := nParts) hv.nodes cellParts ptr
    (List.replicate nNodes nParts) 0 (fun _ _ => False) hv.len hv.first hv.mono hle (by simp) (by
      intro n v hvn
      have := (List.getElem?_eq_some_iff.1 hvn).2
      simp at this
      subst this
      exact ⟨Or.inl rfl, le_refl _, by simp⟩)
  refine ⟨parts, h1, h2, ?_⟩
  intro n hn
  obtain ⟨v, hvn⟩ : ∃ v, parts[n]? = some v := ⟨_, List.getElem?_eq_getElem (by omega)⟩
  obtain ⟨h4, h5, h6⟩ := h3 n v hvn
  have hmem : ∀ i p : Nat, cellParts[i]? = some p → p < nParts :=
    fun i p h => hp p (List.mem_of_getElem? h)
  constructor
  · rintro ⟨i, hi, hu⟩
    have hpi : cellParts[i]? = some cellParts[i] := by simp
    have hvi := h6 _ (Or.inr ⟨i, hu, hpi⟩)
    have hlt := hmem i _ hpi
    refine ⟨v, by omega, hvn, ?_, fun j p' hj hp' => h6 p' (Or.inr ⟨j, hj, hp'⟩)⟩
    rcases h4 with h4 | h4 | h4
    · omega
    · exact absurd h4 (by simp)
    · exact h4
  · intro hno
    rcases h4 with h4 | h4 | ⟨i, hu, hi⟩
    · rw [hvn, h4]
    · exact absurd h4 (by simp)
    · exact absurd ⟨i, (List.getElem?_eq_some_iff.1 hi).1, hu⟩ hno

/-- Finding: on a valid mesh a node that no cell uses is given the part `nParts`, which does
not exist, and slicing the zone that holds it then writes out of range. -/
theorem getNodeParts_orphan : ∃ (ptr idx cellParts : List Nat) (nNodes nParts : Nat)
    (parts : List Nat), ValidMesh ptr idx cellParts.length nNodes ∧
      (∀ p ∈ cellParts, p < nParts) ∧ getNodeParts ptr idx nNodes cellParts nParts = some parts ∧
      (∃ n < nNodes, parts[n]? = some nParts) ∧ slice nParts 1 parts = none := by
  refine ⟨[0, 2], [0, 1], [0], 3, 1, [0, 0, 1], ⟨rfl, rfl, ?_, ?_, by decide⟩, by decide,
    by decide, ⟨2, by decide, rfl⟩, by decide⟩
  · intro i a b ha hb
    match i with
    | 0 => simp at ha hb; omega
    | 1 => simp at hb
    | i + 2 => simp at ha
  · intro a ha; simp at ha; simp; omega

/-- **C06.** Slicing a non-empty field of part numbers that is sorted (as it is after
shuffling) gives each part exactly the ids that carry its number. -/
theorem slice_exact (nParts first : Nat) (field : List Nat) (hne : field ≠ [])
    (hs : field.Pairwise (· ≤ ·)) (hp : ∀ p ∈ field, p < nParts) :
    ∃ table, slice nParts first field = some table ∧ table.length = nParts ∧
      ExactRanges first field table ∧ CoverOnce first field.length table := by
  obtain ⟨part, rest, rfl⟩ := List.exists_cons_of_ne_nil hne
  obtain ⟨table, h1, h2, h3⟩ := sliceLoop_spec (first := first) (nParts := nParts) rest [part]
    (first + 1) first part (List.replicate nParts (0, 0)) (by simp) (le_refl _) (by omega)
    (by simpa using hs) (by simpa using hp) (by simp)
    (fun i h1 h2 => by have : i - first = 0 := by omega
                       simp [this])
    (fun i p h1 h2 => by omega)
    (fun p r hpp hr => by
      have := (List.getElem?_eq_some_iff.1 hr).2
      simp at this
      subst this
      refine ⟨le_refl _, fun id => ⟨fun h => by simp only at h; omega, ?_⟩⟩
      rintro ⟨h1, h2⟩
      have hb := (List.getElem?_eq_some_iff.1 h2).1
      simp at hb
      have : id - first = 0 := by omega
      rw [this] at h2
      simp at h2; omega)
    (fun p h1 h2 => by simp [h2])
  have h3 : ExactRanges first (part :: rest) table := h3
  refine ⟨table, h1, h2, h3, ?_⟩
  intro id hid1 hid2
  obtain ⟨p, hpid⟩ : ∃ p, (part :: rest)[id - first]? = some p :=
    ⟨_, List.getElem?_eq_getElem (by omega)⟩
  have hpl : p < table.length := by rw [h2]; exact hp p (List.mem_of_getElem? hpid)
  refine ⟨p, ⟨table[p], by simp, ?_⟩, ?_⟩
  · exact ((h3 p _ _ (List.getElem?_eq_getElem hpl)).2 id).2 ⟨hid1, hpid⟩
  · rintro p' ⟨r, hr, h4, h5⟩
    have := (((h3 p' r.1 r.2 hr).2 id).1 ⟨h4, h5⟩).2
    rw [hpid] at this
    exact (Option.some.inj this).symm

/-- A field that carries the part numbers is sorted once it has been reordered by the order
that `GetNewOrder` computes. -/
theorem sorted_of_reordered {parts field field' order inverse : List Nat}
    (hf : field = parts) (hi : Inverse parts.length order inverse)
    (hs : StablySorted parts order) (hr : Reordered order field field') :
    field'.Pairwise (· ≤ ·) ∧ (∀ p ∈ field', p ∈ parts) ∧ field'.length = parts.length := by
  subst hf
  obtain ⟨hlen, hget⟩ := hr
  have key : ∀ i < field.length, ∃ j, order[i]? = some j ∧ j < field.length ∧
      field'[i]? = field[j]? := by
    intro i h
    obtain ⟨j, hj, ho, -⟩ := hi.left i h
    exact ⟨j, ho, hj, hget i j ho⟩
  refine ⟨?_, ?_, hlen⟩
  · rw [List.pairwise_iff_getElem]
    intro i i' h1 h2 hlt
    obtain ⟨j, ho, hj, he⟩ := key i (by omega)
    obtain ⟨j', ho', hj', he'⟩ := key i' (by omega)
    rw [List.getElem?_eq_getElem h1] at he
    rw [List.getElem?_eq_getElem h2] at he'
    rcases hs i i' j j' _ _ hlt ho ho' he.symm he'.symm with h | ⟨h, -⟩
    · exact Nat.le_of_lt h
    · exact Nat.le_of_eq h
  · intro p hp
    obtain ⟨i, hil, rfl⟩ := List.getElem_of_mem hp
    obtain ⟨j, ho, hj, he⟩ := key i (by omega)
    rw [List.getElem?_eq_getElem hil] at he
    exact List.mem_of_getElem? he.symm

/-- **C06 for a shuffled zone.** If node field number `m` is the PartIndex (as written by
`WriteParts` before shuffling), then after `Shuffle` slicing that field gives every part
exactly its nodes. -/
theorem slice_shuffled_nodes (zn zn' : Shuffle.Zone Nat) (hw : WellFormed zn)
    (h : Shuffle.shuffleZone zn = some zn') (m nParts : Nat)
    (hm : zn.nodeFields[m]? = some zn.nodeParts) (hne : zn.nodeParts ≠ [])
    (hp : ∀ p ∈ zn.nodeParts, p < nParts) :
    ∃ field' table, zn'.nodeFields[m]? = some field' ∧ slice nParts 1 field' = some table ∧
      table.length = nParts ∧ ExactRanges 1 field' table ∧
      CoverOnce 1 zn.nodeParts.length table := by
  obtain ⟨zn'', hz, hk⟩ := Shuffle.shuffleZone_kept zn hw
  rw [h] at hz
  obtain rfl := Option.some.inj hz
  obtain ⟨order, inverse, hi, hs, -, -, -, hnf, -, -⟩ := hk
  have hml := (List.getElem?_eq_some_iff.1 hm).1
  have hml' : m < zn'.nodeFields.length := by rw [← hnf.length_eq]; exact hml
  have hr : Reordered order zn.nodeParts zn'.nodeFields[m] := by
    have := List.Forall₂.get hnf hml hml'
    simp only [List.get_eq_getElem] at this
    rw [(List.getElem?_eq_some_iff.1 hm).2] at this
    exact this
  obtain ⟨h1, h2, h3⟩ := sorted_of_reordered rfl hi hs hr
  obtain ⟨table, h4, h5, h6, h7⟩ := slice_exact nParts 1 zn'.nodeFields[m]
    (by intro he; rw [he] at h3; exact hne (List.length_eq_zero_iff.1 (by simpa using h3.symm)))
    h1 (fun p hp' => hp p (h2 p hp'))
  rw [h3] at h7
  exact ⟨_, table, by simp, h4, h5, h6, h7⟩

/-- **C06 for the cells of a shuffled section.** If cell field number `m` carries the part of
every cell of section number `k` before shuffling, then after `Shuffle` slicing the section's
part of that field gives every part exactly its cells. -/
theorem slice_shuffled_cells (zn zn' : Shuffle.Zone Nat) (hw : WellFormed zn)
    (h : Shuffle.shuffleZone zn = some zn') (m k nParts : Nat) (s : Shuffle.Sect)
    (field : List Nat) (hk : zn.sects[k]? = some s) (hc : s.isCell = true)
    (hm : zn.cellFields[m]? = some field)
    (hf : ∀ i : Nat, i < s.parts.length → field[s.rangeMin - 1 + i]? = s.parts[i]?)
    (hne : s.parts ≠ []) (hp : ∀ p ∈ s.parts, p < nParts) :
    ∃ field' table, zn'.cellFields[m]? = some field' ∧
      slice nParts s.rangeMin ((field'.drop (s.rangeMin - 1)).take s.parts.length) = some table ∧
      table.length = nParts ∧
      ExactRanges s.rangeMin ((field'.drop (s.rangeMin - 1)).take s.parts.length) table ∧
      CoverOnce s.rangeMin s.parts.length table := by
  obtain ⟨zn'', hz, hkept⟩ := Shuffle.shuffleZone_kept zn hw
  rw [h] at hz
  obtain rfl := Option.some.inj hz
  obtain ⟨_, _, _, _, _, _, _, _, hsects, hfields⟩ := hkept
  have hkl := (List.getElem?_eq_some_iff.1 hk).1
  have hkl' : k < zn'.sects.length := by rw [← hsects.length_eq]; exact hkl
  have hml := (List.getElem?_eq_some_iff.1 hm).1
  have hml' : m < zn'.cellFields.length := by rw [← hfields.length_eq]; exact hml
  have hs := List.Forall₂.get hsects hkl hkl'
  have hfl := List.Forall₂.get hfields hml hml'
  simp only [List.get_eq_getElem] at hs hfl
  rw [(List.getElem?_eq_some_iff.1 hk).2] at hs
  rw [(List.getElem?_eq_some_iff.1 hm).2] at hfl
  obtain ⟨-, -, -, -, -, order, inverse, hi, hso, -, hdata⟩ := hs
  have hd := hdata hc m field zn'.cellFields[m] hm (by simp)
  have hfit := hw.fieldLen s (List.mem_of_getElem? hk) hc field (List.mem_of_getElem? hm)
  have hr : Reordered order s.parts
      ((zn'.cellFields[m].drop (s.rangeMin - 1)).take s.parts.length) := by
    refine ⟨by simp; omega, ?_⟩
    intro i j hij
    have hil : i < s.parts.length := by rw [← hi.lenF]; exact (List.getElem?_eq_some_iff.1 hij).1
    obtain ⟨j', hj', he, -⟩ := hi.left i hil
    rw [hij] at he
    obtain rfl := Option.some.inj he
    rw [List.getElem?_take_of_lt hil, List.getElem?_drop, hd i j hij, hf j hj']
  obtain ⟨h1, h2, h3⟩ := sorted_of_reordered rfl hi hso hr
  obtain ⟨table, h4, h5, h6, h7⟩ := slice_exact nParts s.rangeMin _
    (by intro he; rw [he] at h3; exact hne (List.length_eq_zero_iff.1 (by simpa using h3.symm)))
    h1 (fun p hp' => hp p (h2 p hp'))
  rw [h3] at h7
  exact ⟨_, table, by simp, h4, h5, h6, h7⟩

/-- Slicing an unsorted field loses ids: the requirement is not vacuous. -/
example : slice 2 1 [0, 1, 0] = some [(3, 4), (2, 3)] := by decide

example : slice 3 5 [0, 0, 2, 2, 2] = some [(5, 7), (0, 0), (7, 10)] := by decide

/-- Two triangles sharing an edge, in parts 1 and 0. -/
example : ValidMesh [0, 3, 6] [0, 1, 2, 2, 1, 3] 2 4 := by
  refine ⟨rfl, rfl, ?_, ?_, by decide⟩
  · intro i a b ha hb
    match i with
    | 0 => simp at ha hb; omega
    | 1 => simp at ha hb; omega
    | 2 => simp at hb
    | i + 3 => simp at ha
  · intro a ha; simp at ha; simp; omega

example : getNodeParts [0, 3, 6] [0, 1, 2, 2, 1, 3] 4 [1, 0] 2 = some [1, 0, 0, 0] := by decide

end MiniCFD.Partition
