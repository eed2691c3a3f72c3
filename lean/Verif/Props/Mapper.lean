import Verif.Lemmas.MapperShuffle

/-!
C04 (CGNS-METIS maps stay mutually inverse) and C51 (the METIS mesh has the cells of the
CGNS mesh).
-/
namespace MiniCFD.Mapper
open MiniCFD.Spec.Mapper

/-- `Map` succeeds on every valid mesh. -/
theorem map_total (zones : List Zone) (h : ValidMesh zones) : ∃ st, map zones = some st :=
  zoneLoop_isSome zones 1 {} h

/-- **C04, first half.** The maps built by `Map` are mutually inverse. -/
theorem map_inverse (zones : List Zone) (st : St) (h : map zones = some st) :
    NodesInverse zones st.maps ∧ CellsInverse zones st.maps := by
  have hi := map_inv h
  exact ⟨nodesInverse_of_good (pre := []) rfl hi.nodes,
    cellsInverse_of_good (pre := []) rfl hi.cells.good⟩

/-- `Shuffle` updates the maps without any invalid access, for every assignment of parts,
provided no zone and no section of cells is empty. -/
theorem shuffleMaps_total (zones : List Zone) (st : St) (h : map zones = some st)
    (hne : NonEmpty zones) (nodeParts cellParts : List Nat)
    (hn : nodeParts.length = st.maps.m2cNodes.length)
    (hc : cellParts.length = st.maps.m2cCells.length) :
    ∃ mp', shuffleMaps nodeParts cellParts zones st.maps = some mp' := by
  have hi := map_inv h
  exact shuffleMapsLoop_isSome zones [] st.maps hne hn hc
    ⟨hi.nodes, by simp [nodeBlocks]⟩ ⟨hi.cells.good, by simp [cellBlocks]⟩

/-- **C04, second half.** They are still mutually inverse after `Shuffle`, whatever the
parts, and afterwards each zone's nodes and each section's cells are sorted by part. -/
theorem shuffleMaps_inverse (zones : List Zone) (st : St) (h : map zones = some st)
    (nodeParts cellParts : List Nat) (mp' : Maps)
    (hs : shuffleMaps nodeParts cellParts zones st.maps = some mp') :
    NodesInverse zones mp' ∧ CellsInverse zones mp' ∧
      NodesSorted nodeParts zones mp' ∧ CellsSorted cellParts zones mp' := by
  have hi := map_inv h
  obtain ⟨hn, hc⟩ := shuffleMapsLoop_inv (np := nodeParts) (cp := cellParts) zones [] st.maps mp'
    ⟨hi.nodes, by simp [nodeBlocks]⟩ ⟨hi.cells.good, by simp [cellBlocks]⟩ hs
  refine ⟨nodesInverse_of_good (post := []) (by simp) hn.good,
    cellsInverse_of_good (post := []) (by simp) hc.good, ?_, ?_⟩
  · intro z i i' m m' p p' hz hz' hlt h1 h2 h3 h4
    obtain ⟨b, hb, rfl, h5, h6⟩ := isNode_iff.1 hz
    obtain ⟨b', hb', he', h5', h6'⟩ := isNode_iff.1 hz'
    rw [nodeNumber_eq, Option.bind_eq_some_iff] at h1 h2
    obtain ⟨v, hv, h1⟩ := h1
    obtain ⟨v', hv', h2⟩ := h2
    rw [hv] at hv'
    obtain rfl := Option.some.inj hv'
    have hge : v.shift ≤ i := by
      by_contra hc; rw [Shifted.at, if_pos (by omega)] at h1; simp at h1
    rw [Shifted.at, if_neg (by omega)] at h1 h2
    exact hn.sorted b (by simpa using hb) v hv (i - v.shift) (i' - v.shift) m m' p p' (by omega)
      h1 h2 h3 h4
  · intro z s i i' m m' p p' hz hz' hlt h1 h2 h3 h4
    obtain ⟨b, hb, he, h5, h6⟩ := isCell_iff.1 hz
    rw [cellNumber_eq, Option.bind_eq_some_iff] at h1 h2
    obtain ⟨v, hv, h1⟩ := h1
    obtain ⟨v', hv', h2⟩ := h2
    rw [hv] at hv'
    obtain rfl := Option.some.inj hv'
    have hge : v.shift ≤ i := by
      by_contra hc; rw [Shifted.at, if_pos (by omega)] at h1; simp at h1
    rw [Shifted.at, if_neg (by omega)] at h1 h2
    exact hc.sorted b (by simpa using hb) v (by rw [he]; exact hv) (i - v.shift) (i' - v.shift)
      m m' p p' (by omega) h1 h2 h3 h4

/-- `IsValid` returns true (and throws nothing) on maps that are mutually inverse, so it
does after `Map` and after `Shuffle`. -/
theorem isValid_of_inverse (zones : List Zone) (mp : Maps) (hn : NodesInverse zones mp)
    (hc : CellsInverse zones mp) : isValid mp = some true := by
  have key1 : ∀ (l : List (Nat × Nat)) (m : Nat),
      (∀ (j : Nat) a, l[j]? = some a → mp.m2cNodes[m + j]? = some a) →
      validNodes mp l m = some true := by
    intro l
    induction l with
    | nil => intro m _; rfl
    | cons a l ih =>
      intro m hl
      obtain ⟨z, i⟩ := a
      have h0 := hl 0 _ rfl
      have h1 := (hn.back _ _ _ h0).2
      simp only [nodeNumber, Option.bind_eq_some_iff] at h1
      obtain ⟨v, h1, h2⟩ := h1
      simp only [validNodes, h1, Option.bind_eq_bind, Option.bind_some, h2]
      rw [if_neg (by simp)]
      refine ih (m + 1) (fun j a hj => ?_)
      rw [Nat.add_assoc, Nat.add_comm 1 j]
      exact hl (j + 1) a (by simpa using hj)
  have key2 : ∀ (l : List ((Nat × Nat) × Nat)) (m : Nat),
      (∀ (j : Nat) a, l[j]? = some a → mp.m2cCells[m + j]? = some a) →
      validCells mp l m = some true := by
    intro l
    induction l with
    | nil => intro m _; rfl
    | cons a l ih =>
      intro m hl
      obtain ⟨⟨z, s⟩, i⟩ := a
      have h0 := hl 0 _ rfl
      have h1 := (hc.back _ _ _ _ h0).2
      simp only [cellNumber, Option.bind_eq_some_iff] at h1
      obtain ⟨v, h1, w, h2, h3⟩ := h1
      simp only [validCells, h1, Option.bind_eq_bind, Option.bind_some, h2, h3]
      rw [if_neg (by simp)]
      refine ih (m + 1) (fun j a hj => ?_)
      rw [Nat.add_assoc, Nat.add_comm 1 j]
      exact hl (j + 1) a (by simpa using hj)
  simp only [isValid, key1 mp.m2cNodes 0 (fun j a h => by simpa using h), Option.bind_eq_bind,
    Option.bind_some, if_true]
  exact key2 _ 0 (fun j a h => by simpa using h)

/-- Conversely, `IsValid` returning true means that METIS -> CGNS -> METIS is the identity. -/
theorem back_of_isValid (mp : Maps) (h : isValid mp = some true) :
    (∀ (m : Nat) z i, mp.m2cNodes[m]? = some (z, i) → nodeNumber mp z i = some m) ∧
    (∀ (m : Nat) z s i, mp.m2cCells[m]? = some ((z, s), i) → cellNumber mp z s i = some m) := by
  have key1 : ∀ (l : List (Nat × Nat)) (m : Nat), validNodes mp l m = some true →
      ∀ (j : Nat) z i, l[j]? = some (z, i) → nodeNumber mp z i = some (m + j) := by
    intro l
    induction l with
    | nil => intro m _ j z i hj; simp at hj
    | cons a l ih =>
      intro m hv j z i hj
      obtain ⟨z0, i0⟩ := a
      simp only [validNodes, Option.bind_eq_bind, Option.bind_eq_some_iff] at hv
      obtain ⟨v, h1, m', h2, h3⟩ := hv
      split at h3
      · simp at h3
      · rename_i hm
        cases j with
        | zero =>
          simp only [List.getElem?_cons_zero, Option.some.injEq, Prod.mk.injEq] at hj
          obtain ⟨rfl, rfl⟩ := hj
          simp only [nodeNumber, h1, Option.bind_some, h2]
          congr 1; omega
        | succ j =>
          rw [ih (m + 1) h3 j z i (by simpa using hj)]; congr 1; omega
  have key2 : ∀ (l : List ((Nat × Nat) × Nat)) (m : Nat), validCells mp l m = some true →
      ∀ (j : Nat) z s i, l[j]? = some ((z, s), i) → cellNumber mp z s i = some (m + j) := by
    intro l
    induction l with
    | nil => intro m _ j z s i hj; simp at hj
    | cons a l ih =>
      intro m hv j z s i hj
      obtain ⟨⟨z0, s0⟩, i0⟩ := a
      simp only [validCells, Option.bind_eq_bind, Option.bind_eq_some_iff] at hv
      obtain ⟨v, h1, w, h1', m', h2, h3⟩ := hv
      split at h3
      · simp at h3
      · rename_i hm
        cases j with
        | zero =>
          simp only [List.getElem?_cons_zero, Option.some.injEq, Prod.mk.injEq] at hj
          obtain ⟨⟨rfl, rfl⟩, rfl⟩ := hj
          simp only [cellNumber, h1, Option.bind_some, h1', h2]
          congr 1; omega
        | succ j =>
          rw [ih (m + 1) h3 j z s i (by simpa using hj)]; congr 1; omega
  simp only [isValid, Option.bind_eq_bind, Option.bind_eq_some_iff] at h
  obtain ⟨b, h1, h2⟩ := h
  cases b with
  | false => simp at h2
  | true =>
    simp only [if_true] at h2
    exact ⟨fun m z i hm => by simpa using key1 _ 0 h1 m z i hm,
      fun m z s i hm => by simpa using key2 _ 0 h2 m z s i hm⟩

/-- **C51.** The METIS mesh returned by `Map` describes exactly the cells of the CGNS
mesh. -/
theorem map_sameCells (zones : List Zone) (hv : ValidMesh zones) (st : St)
    (h : map zones = some st) : SameCells zones st := by
  have hi := map_inv h
  refine ⟨hi.cells.ptrLen, ?_⟩
  intro m z s i zn sc hm hz hs
  -- find the block of `m`
  have hcov : ∃ b ∈ cellBlocks 1 zones, ∃ o, o ≤ m ∧ m < o + b.n ∧
      BlkId st.maps.m2cCells (lookC st.maps.c2mCells) b o ∧
      MeshBlk zones st.cellPtr st.cellIdx b o := by
    have hlt := (List.getElem?_eq_some_iff.1 hm).1
    have hlen := hi.cells.good.len
    simp only [sz_nil, Nat.zero_add] at hlen
    have hboth : ∀ {P Q : Block (Nat × Nat) → Nat → Prop} {off : Nat} {bs},
        AllBlk P off bs → AllBlk Q off bs → AllBlk (fun b o => P b o ∧ Q b o) off bs := by
      intro P Q off bs
      induction bs generalizing off with
      | nil => intros; trivial
      | cons b bs ih => exact fun h1 h2 => ⟨⟨h1.1, h2.1⟩, ih h1.2 h2.2⟩
    have h1 := hi.cells.good.hpost
    simp only [sz_nil] at h1
    exact (hboth h1 hi.cells.mesh).cover (Nat.zero_le m) (by omega)
  obtain ⟨b, hb, o, h1, h2, ⟨v, hv1, hv2, hv3, hv4, hv5⟩, zn', sc', hz', hs', hsh, hmesh⟩ := hcov
  have hkey := hv5 (m - o) (by omega)
  rw [Nat.add_sub_cancel' h1, hm] at hkey
  simp only [Option.some.injEq, Prod.mk.injEq] at hkey
  obtain ⟨hk, rfl⟩ := hkey
  rw [← hk] at hz' hs' hmesh
  simp only at hz' hs' hmesh
  rw [hz] at hz'
  obtain rfl := Option.some.inj hz'
  rw [hs] at hs'
  obtain rfl := Option.some.inj hs'
  obtain ⟨p, h3, h4, h5⟩ := hmesh (m - o) (by omega)
  rw [Nat.add_sub_cancel' h1] at h3 h4
  refine ⟨p, h3, h4, fun k hk' => ?_⟩
  obtain ⟨nid, h6, h7, h8⟩ := h5 k hk'
  have hnid : 1 ≤ nid ∧ nid ≤ zn.nNodes := by
    obtain ⟨j, zn'', hj, hb'⟩ := mem_cellBlocks.1 hb
    obtain ⟨j', sc'', hj', hc'', rfl⟩ := mem_sectBlocks.1 hb'
    simp only [Prod.mk.injEq] at hk
    obtain ⟨rfl, rfl⟩ := hk
    rw [Nat.add_sub_cancel_left] at hz hs
    rw [hz] at hj
    obtain rfl := Option.some.inj hj
    rw [hs] at hj'
    obtain rfl := Option.some.inj hj'
    exact (hv zn (List.mem_of_getElem? hz) sc (List.mem_of_getElem? hs) hc'').2 nid
      (List.mem_of_getElem? h6)
  have hnum : nodeNumber st.maps z nid = some (nodeOff zones z + nid - 1) := by
    have hz1 : 1 ≤ z := by
      obtain ⟨j, zn'', hj, hb'⟩ := mem_cellBlocks.1 hb
      have := (sectBlocks_key_lt hb').1
      rw [← hk] at this; simp only at this; omega
    have hzl := (List.getElem?_eq_some_iff.1 hz).1
    have hsplit : zones = zones.take (z - 1) ++ zn :: zones.drop (z - 1 + 1) := by
      conv_lhs => rw [← List.take_append_drop (z - 1) zones]
      rw [List.drop_eq_getElem_cons hzl, (List.getElem?_eq_some_iff.1 hz).2]
    have hg := hi.nodes.hpost
    rw [hsplit, nodeBlocks_append] at hg
    simp only [sz_nil] at hg
    rw [AllBlk.append] at hg
    have hb2 := hg.2.1
    obtain ⟨w, hw1, hw2, hw3, hw4, -⟩ := hb2
    have hzz : 1 + (zones.take (z - 1)).length = z := by
      rw [List.length_take]; omega
    simp only [hzz] at hw1 hw2 hw3 hw4
    rw [nodeNumber_eq, hw1, Option.bind_some, Shifted.at, hw2, if_neg (by omega),
      hw4 (nid - 1) (by omega), sz_nodeBlocks, nodeOff]
    congr 1; omega
  refine ⟨nid, ?_, ?_, ?_⟩
  · rw [hsh, Nat.add_sub_cancel_left]; exact h6
  · rw [h8, hnum]
  · rw [hnum]; rfl

/-! ### examples -/

/-- Two zones: four nodes, two triangles and a section of edges; three nodes, one triangle
and a section of cells numbered from 5. -/
def exampleZones : List Zone :=
  [⟨4, [⟨false, 1, 2, 2, [1, 2, 2, 3]⟩, ⟨true, 3, 2, 3, [1, 2, 3, 2, 4, 3]⟩]⟩,
   ⟨3, [⟨true, 5, 1, 3, [3, 1, 2]⟩]⟩]

example : ValidMesh exampleZones ∧ NonEmpty exampleZones := by
  unfold ValidMesh NonEmpty exampleZones; decide

example : (map exampleZones).map (fun st => (st.cellPtr, st.cellIdx)) =
    some ([0, 3, 6, 9], [0, 1, 2, 1, 3, 2, 6, 4, 5]) := by decide +kernel

/-- The maps really move under `Shuffle`, and remain inverse. -/
example : ((map exampleZones).bind (fun st =>
      shuffleMaps [2, 1, 0, 0, 1, 0, 1] [1, 0, 0] exampleZones st.maps)).map
      (fun mp => (mp.c2mNodes, mp.m2cNodes)) =
    some ([[2, 3, 1, 0], [5, 4, 6]],
      [(1, 4), (1, 3), (1, 1), (1, 2), (2, 2), (2, 1), (2, 3)]) := by decide +kernel

/-- `Shuffle` may be run only once on the same maps: a second run takes the METIS number of
the node that is now first for the offset of the zone, and mixes the zones up. -/
theorem shuffleMaps_twice_breaks : ∃ (zones : List Zone) (st : St) (np cp : List Nat)
    (mp mp' : Maps), map zones = some st ∧ ValidMesh zones ∧ NonEmpty zones ∧
      shuffleMaps np cp zones st.maps = some mp ∧ shuffleMaps np cp zones mp = some mp' ∧
      isValid mp' = some false ∧ ¬ NodesInverse zones mp' := by
  refine ⟨[⟨2, []⟩, ⟨2, []⟩], _, [2, 1, 0, 0], [], _, _, rfl, by unfold ValidMesh; decide,
    by unfold NonEmpty; decide, rfl, rfl, by decide +kernel, ?_⟩
  intro h
  have := (h.back 1 2 1 (by decide +kernel)).2
  revert this
  decide +kernel

end MiniCFD.Mapper
