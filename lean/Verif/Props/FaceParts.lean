import Verif.Lemmas.FaceParts

/-! C77: faces on the boundary go to the part of the cell which has them. -/

namespace MiniCFD.FaceParts

open MiniCFD.Spec.FaceParts MiniCFD.Faces

/-- What is computed for a face. -/
theorem facePart_eq {g : Grid} {n : Nat} {parts : List Nat} (h : Good g n parts.length) {order : Order}
    (ho : Fair order) {z : Zone} {us : List (List Nat)} (hu : Holds n (cells g) us) {face : List Nat} (h0 : face ≠ [])
    (hn : ∀ i ∈ face, ∃ k, z.nodeMap i = some k ∧ k < n) (debug : Bool) :
    ∃ l : List (Nat × Nat), l.Nodup ∧ (∀ e, e ∈ l ↔ e.2 = face.length ∧ Has g (renamed z face) e.1) ∧
      l = (order (tally ((renamed z face).flatMap (users (mesh (cells g)) 0)))).filter (·.2 = face.length) ∧
      facePart debug order parts z us face = if debug && decide (l.length ≠ 1) then none else
        some (l.foldl (fun s e => ((parts[e.1]?).getD 0, s.2 + 1)) (0, 0)).1 := by
  have h0' : renamed z face ≠ [] := by simpa [renamed] using h0
  have hlen : (renamed z face).length = face.length := by simp [renamed]
  obtain ⟨k1, k2, k3⟩ := counts h ho h0'
  rw [hlen] at k1 k2
  refine ⟨(order (tally ((renamed z face).flatMap (users (mesh (cells g)) 0)))).filter (·.2 = face.length),
    k3.filter _, fun e => ?_, rfl, ?_⟩
  · rw [List.mem_filter, ← k2 e.1]
    constructor
    · rintro ⟨he, hl⟩
      have hl : e.2 = face.length := by simpa using hl
      exact ⟨hl, hl ▸ he⟩
    · rintro ⟨hl, he⟩
      obtain ⟨a, b⟩ := e
      have hl : b = face.length := hl
      subst hl
      exact ⟨he, by simp⟩
  · unfold facePart
    rw [faceUsers_spec hu hn]
    simp only [Option.bind_eq_bind, Option.bind_some]
    rw [visit_all _ (fun e he => (k1 e he).1) (fun e he => (k1 e he).2)]
    simp only [Option.bind_some]
    have := visit_count ((order (tally ((renamed z face).flatMap (users (mesh (cells g)) 0)))).filter
      (·.2 = face.length)) (fun i => (parts[i]?).getD 0) (0, 0)
    rw [this, Nat.zero_add]

/-- **C77** If just one cell has all nodes of a face, the face goes to the part of that cell, in whichever order the
counts are walked, and whether or not assertions are checked. -/
theorem face_goes_with_cell {g : Grid} {n : Nat} {parts : List Nat} (h : Good g n parts.length) {order : Order}
    (ho : Fair order) {z : Zone} {us : List (List Nat)} (hu : buildUsers g n = some us) {face : List Nat}
    (h0 : face ≠ []) (hn : ∀ i ∈ face, ∃ k, z.nodeMap i = some k ∧ k < n) (debug : Bool) {c : Nat}
    (hc : Has g (renamed z face) c) (huniq : ∀ d, Has g (renamed z face) d → d = c) :
    facePart debug order parts z us face = parts[c]? := by
  obtain ⟨us', hu', hold⟩ := buildUsers_spec h
  cases hu.symm.trans hu'
  obtain ⟨l, hnd, hl, -, he⟩ := facePart_eq h ho hold h0 hn debug
  have hmem : ∀ e ∈ l, e = (c, face.length) := fun e he =>
    Prod.ext (huniq _ ((hl e).1 he).2) ((hl e).1 he).1
  have hone : l = [(c, face.length)] := by
    have hin : (c, face.length) ∈ l := (hl _).2 ⟨rfl, hc⟩
    cases l with
    | nil => cases hin
    | cons a t =>
      cases t with
      | nil => rw [hmem a List.mem_cons_self]
      | cons b t =>
        exfalso
        have ha := hmem a List.mem_cons_self
        have hb := hmem b (by simp)
        rw [ha, hb] at hnd
        simp at hnd
  rw [he, hone]
  obtain ⟨nodes, hin, -⟩ := hc
  have hlt := h.range _ hin
  simp [List.getElem?_eq_getElem hlt]

/-- **C77** With assertions, the call succeeds just for faces of exactly one cell. -/
theorem accepted_iff {g : Grid} {n : Nat} {parts : List Nat} (h : Good g n parts.length) {order : Order}
    (ho : Fair order) {z : Zone} {us : List (List Nat)} (hu : buildUsers g n = some us) {face : List Nat}
    (h0 : face ≠ []) (hn : ∀ i ∈ face, ∃ k, z.nodeMap i = some k ∧ k < n) :
    (facePart true order parts z us face).isSome ↔ ∃ c, Has g (renamed z face) c ∧ ∀ d, Has g (renamed z face) d → d = c := by
  constructor
  · intro hs
    obtain ⟨us', hu', hold⟩ := buildUsers_spec h
    cases hu.symm.trans hu'
    obtain ⟨l, hnd, hl, -, he⟩ := facePart_eq h ho hold h0 hn true
    have h1 : l.length = 1 := by
      by_contra hne
      rw [he] at hs
      simp [hne] at hs
    obtain ⟨a, rfl⟩ := List.length_eq_one_iff.1 h1
    refine ⟨a.1, ((hl a).1 List.mem_cons_self).2, fun d hd => ?_⟩
    have := (hl (d, face.length)).2 ⟨rfl, hd⟩
    rw [List.mem_singleton] at this
    rw [← this]
  · rintro ⟨c, hc, huniq⟩
    rw [face_goes_with_cell h ho hu h0 hn true hc huniq]
    obtain ⟨nodes, hin, -⟩ := hc
    simpa using h.range _ hin

/-- **C77** Without assertions, a face which no cell has goes to part 0. -/
theorem orphan_face {g : Grid} {n : Nat} {parts : List Nat} (h : Good g n parts.length) {order : Order}
    (ho : Fair order) {z : Zone} {us : List (List Nat)} (hu : buildUsers g n = some us) {face : List Nat}
    (h0 : face ≠ []) (hn : ∀ i ∈ face, ∃ k, z.nodeMap i = some k ∧ k < n)
    (hno : ∀ d, ¬Has g (renamed z face) d) : facePart false order parts z us face = some 0 := by
  obtain ⟨us', hu', hold⟩ := buildUsers_spec h
  cases hu.symm.trans hu'
  obtain ⟨l, hnd, hl, -, he⟩ := facePart_eq h ho hold h0 hn false
  have : l = [] := by
    cases l with
    | nil => rfl
    | cons a t => exact absurd ((hl a).1 List.mem_cons_self).2 (hno _)
  rw [he, this]
  rfl

/-- **C77** Without assertions, a face which some cell has goes to the part of some such cell. -/
theorem some_holder {g : Grid} {n : Nat} {parts : List Nat} (h : Good g n parts.length) {order : Order}
    (ho : Fair order) {z : Zone} {us : List (List Nat)} (hu : buildUsers g n = some us) {face : List Nat}
    (h0 : face ≠ []) (hn : ∀ i ∈ face, ∃ k, z.nodeMap i = some k ∧ k < n) {d : Nat}
    (hd : Has g (renamed z face) d) :
    ∃ c, Has g (renamed z face) c ∧ facePart false order parts z us face = parts[c]? := by
  obtain ⟨us', hu', hold⟩ := buildUsers_spec h
  cases hu.symm.trans hu'
  obtain ⟨l, hnd, hl, -, he⟩ := facePart_eq h ho hold h0 hn false
  have hne : l ≠ [] := fun h => by
    have := (hl (d, face.length)).2 ⟨rfl, hd⟩
    rw [h] at this
    cases this
  obtain ⟨t, a, rfl⟩ : ∃ t a, l = t ++ [a] := ⟨l.dropLast, l.getLast hne, (List.dropLast_append_getLast hne).symm⟩
  have ha := ((hl a).1 (by simp)).2
  refine ⟨a.1, ha, ?_⟩
  obtain ⟨nodes, hin, -⟩ := ha
  have hlt := h.range _ hin
  rw [he, List.foldl_append]
  simp [List.getElem?_eq_getElem hlt]

theorem mapM_forall₂ {α β : Type} {f : α → Option β} (l : List α) (g : α → β → Prop)
    (h : ∀ a ∈ l, ∃ b, f a = some b ∧ g a b) : ∃ r, l.mapM f = some r ∧ List.Forall₂ g l r := by
  induction l with
  | nil => exact ⟨[], rfl, .nil⟩
  | cons a l ih =>
    obtain ⟨b, hb, hg⟩ := h a List.mem_cons_self
    obtain ⟨r, hr, hf⟩ := ih fun a' h' => h a' (List.mem_cons_of_mem _ h')
    exact ⟨b :: r, by simp [List.mapM_cons, hb, hr], .cons hg hf⟩

/-- **C77** If each face of a grid belongs to just one cell, then `FillFaceParts` succeeds and gives each face of each
section of faces the part of its cell. -/
theorem fill {g : Grid} {n : Nat} {parts : List Nat} (h : Good g n parts.length) {order : Order} (ho : Fair order)
    (debug : Bool)
    (hf : ∀ z ∈ g.zones, ∀ s ∈ z.sects, s.dim + 1 = g.dim → ∀ e ∈ s.elems, e.2 ≠ [] ∧
      ∃ c, Has g (renamed z e.2) c ∧ ∀ d, Has g (renamed z e.2) d → d = c) :
    ∃ r, fillFaceParts debug order parts n g = some r ∧
      List.Forall₂ (fun z (rz : List (List Nat)) => List.Forall₂ (fun (s : Sect) (rs : List Nat) =>
        s.dim + 1 = g.dim → List.Forall₂ (fun e p => ∃ c, Has g (renamed z e.2) c ∧ parts[c]? = some p) s.elems rs)
        z.sects rz) g.zones r := by
  obtain ⟨us, hu, hold⟩ := buildUsers_spec h
  unfold fillFaceParts
  simp only [hu, Option.bind_eq_bind, Option.bind_some]
  refine mapM_forall₂ _ _ fun z hz => mapM_forall₂ _ _ fun s hs => ?_
  by_cases hd : s.dim + 1 = g.dim
  · simp only [hd, if_true, forall_const]
    refine mapM_forall₂ _ _ fun e he => ?_
    obtain ⟨h0, c, hc, huniq⟩ := hf z hz s hs hd e he
    obtain ⟨nodes, hin, hsub⟩ := hc
    have hlt := h.range _ hin
    refine ⟨parts[c], ?_, c, ⟨nodes, hin, hsub⟩, List.getElem?_eq_getElem hlt⟩
    rw [face_goes_with_cell h ho hu h0 (h.nodes z hz s hs (Or.inr hd) e he) debug ⟨nodes, hin, hsub⟩ huniq]
    exact List.getElem?_eq_getElem hlt
  · exact ⟨[], by simp only [if_neg hd], fun h => absurd h hd⟩

/-- The cells of one part, with the nodes in the numbering of METIS, so that one zone is enough. -/
def ofPart (g : Grid) (parts : List Nat) (p : Nat) : Mesh := mesh ((cells g).filter fun c => parts[c.1]? = some p)

/-- **C77** The part which gets a face is one on which `BuildBoundaryFaces` finds the cell that holds it; on any other
part it finds none. -/
theorem holder_on_its_part {g : Grid} {n : Nat} {parts : List Nat} (h : Good g n parts.length) {order order' : Order}
    (ho : Fair order) (ho' : Fair order') {z : Zone} {us : List (List Nat)} (hu : buildUsers g n = some us)
    {face : List Nat} (h0 : face ≠ []) (hn : ∀ i ∈ face, ∃ k, z.nodeMap i = some k ∧ k < n) {p : Nat}
    (hp : facePart true order parts z us face = some p) :
    ∃ c, Has g (renamed z face) c ∧
      holderOf order' (ofPart g parts p) 0 face.length (renamed z face) = some c ∧
      ∀ q, q ≠ p → holderOf order' (ofPart g parts q) 0 face.length (renamed z face) = none := by
  obtain ⟨c, hc, huniq⟩ := (accepted_iff h ho hu h0 hn).1 (by rw [hp]; rfl)
  rw [face_goes_with_cell h ho hu h0 hn true hc huniq] at hp
  have hlen : (renamed z face).length = face.length := by simp [renamed]
  have hnz : face.length ≠ 0 := fun h => h0 (List.eq_nil_of_length_eq_zero h)
  have sound : ∀ q, Sound (ofPart g parts q) := by
    intro q
    have hs := mesh_sound h
    have hsub : ((ofPart g parts q).cells).Sublist (mesh (cells g)).cells := by
      exact List.Sublist.map _ List.filter_sublist
    exact ⟨hs.ids.sublist (hsub.map _), hs.sites.sublist (hsub.map _), fun c hc => hs.nodes c (hsub.mem hc)⟩
  have back : ∀ q, ∀ d ∈ (ofPart g parts q).cells, (∀ x ∈ renamed z face, x ∈ d.nodes) → d.m = c ∧ parts[c]? = some q := by
    intro q d hd hall
    obtain ⟨e, he, rfl⟩ := List.mem_map.1 hd
    obtain ⟨hin, hq⟩ := List.mem_filter.1 he
    have : e.1 = c := huniq _ ⟨e.2, hin, hall⟩
    exact ⟨this, by rw [← this]; simpa using hq⟩
  refine ⟨c, hc, ?_, fun q hq => ?_⟩
  · obtain ⟨nodes, hin, hall⟩ := hc
    have hd : (⟨c, ⟨0, 0, c⟩, nodes⟩ : LocalCell) ∈ (ofPart g parts p).cells :=
      List.mem_map.2 ⟨(c, nodes), List.mem_filter.2 ⟨hin, by simpa using hp⟩, rfl⟩
    refine holderOf_eq (sound p) order' ho' 0 face.length _ hlen hnz hd rfl hall fun d hd' _ hall' => ?_
    exact List.inj_on_of_nodup_map (sound p).ids hd' hd (back p d hd' hall').1
  · refine holderOf_none (sound q) order' ho' 0 face.length _ hlen hnz fun d hd _ hall => hq ?_
    have := (back q d hd hall).2
    rw [hp] at this
    exact (Option.some.inj this).symm

/-- Two quadrilaterals side by side in one zone whose nodes are numbered from 1, a section of boundary edges, and a
section of points, which is passed over. -/
def pair : Grid := ⟨2, [⟨fun i => if 1 ≤ i ∧ i ≤ 6 then some (i - 1) else none,
  [⟨2, [(0, [1, 2, 5, 4]), (1, [2, 3, 6, 5])]⟩, ⟨1, [(3, [1, 2]), (4, [3, 6]), (5, [2, 3])]⟩, ⟨0, [(6, [9])]⟩]⟩]⟩

theorem pair_good : Good pair 6 2 where
  nodes := by
    intro z hz s hs hd e he i hi
    obtain rfl := List.mem_singleton.1 hz
    simp only [List.mem_cons, List.not_mem_nil, or_false] at hs
    rcases hs with rfl | rfl | rfl
    · simp only [List.mem_cons, List.not_mem_nil, or_false] at he
      rcases he with rfl | rfl <;> simp only [List.mem_cons, List.not_mem_nil, or_false] at hi <;>
        rcases hi with rfl | rfl | rfl | rfl <;> exact ⟨_, rfl, by decide⟩
    · simp only [List.mem_cons, List.not_mem_nil, or_false] at he
      rcases he with rfl | rfl | rfl <;> simp only [List.mem_cons, List.not_mem_nil, or_false] at hi <;>
        rcases hi with rfl | rfl <;> exact ⟨_, rfl, by decide⟩
    · simp [pair] at hd
  ids := by decide
  range := by decide
  distinct := by decide

theorem pair_cells : cells pair = [(0, [0, 1, 4, 3]), (1, [1, 2, 5, 4])] := rfl

/-- The hypotheses of `fill` are met, and the faces go to parts 7, 3, 3. -/
example : ∃ r, fillFaceParts true List.reverse [7, 3] 6 pair = some r ∧ r = [[[], [7, 3, 3], []]] := by
  refine ⟨_, ?_, rfl⟩
  obtain ⟨r, hr, -⟩ := fill pair_good (parts := [7, 3]) (order := List.reverse) (fun _ => List.reverse_perm _) true (by
    intro z hz s hs hd e he
    obtain rfl := List.mem_singleton.1 hz
    simp only [List.mem_cons, List.not_mem_nil, or_false] at hs
    rcases hs with rfl | rfl | rfl
    · simp [pair] at hd
    · simp only [List.mem_cons, List.not_mem_nil, or_false] at he
      rcases he with rfl | rfl | rfl
      · refine ⟨by simp, 0, ⟨_, List.mem_cons_self, by decide⟩, ?_⟩
        rintro d ⟨nodes, hd, hall⟩
        rw [pair_cells] at hd
        simp only [List.mem_cons, List.not_mem_nil, or_false, Prod.mk.injEq] at hd
        rcases hd with ⟨rfl, rfl⟩ | ⟨rfl, rfl⟩
        · rfl
        · exact absurd (hall 0 (by decide)) (by decide)
      · refine ⟨by simp, 1, ⟨[1, 2, 5, 4], by decide, by decide⟩, ?_⟩
        rintro d ⟨nodes, hd, hall⟩
        rw [pair_cells] at hd
        simp only [List.mem_cons, List.not_mem_nil, or_false, Prod.mk.injEq] at hd
        rcases hd with ⟨rfl, rfl⟩ | ⟨rfl, rfl⟩
        · exact absurd (hall 2 (by decide)) (by decide)
        · rfl
      · refine ⟨by simp, 1, ⟨[1, 2, 5, 4], by decide, by decide⟩, ?_⟩
        rintro d ⟨nodes, hd, hall⟩
        rw [pair_cells] at hd
        simp only [List.mem_cons, List.not_mem_nil, or_false, Prod.mk.injEq] at hd
        rcases hd with ⟨rfl, rfl⟩ | ⟨rfl, rfl⟩
        · exact absurd (hall 2 (by decide)) (by decide)
        · rfl
    · simp [pair] at hd)
  exact hr.trans (hr.symm.trans rfl)

/-- **C77** Without assertions, the part of a face between two cells depends on how the hash map is walked; with
assertions, the program stops. -/
theorem part_by_chance : ∃ us z, buildUsers pair 6 = some us ∧ z ∈ pair.zones ∧
    facePart false id [7, 3] z us [2, 5] = some 3 ∧ facePart false List.reverse [7, 3] z us [2, 5] = some 7 ∧
    facePart true id [7, 3] z us [2, 5] = none :=
  ⟨_, _, rfl, List.mem_singleton.2 rfl, rfl, rfl, rfl⟩

/-- **C77** An edge which belongs to no cell: part 0, though no cell is on that part. -/
example : ∃ us z, buildUsers pair 6 = some us ∧ z ∈ pair.zones ∧ facePart false id [7, 3] z us [1, 6] = some 0 :=
  ⟨_, _, rfl, List.mem_singleton.2 rfl, rfl⟩

/-- **C77** A face with a node that the mapper does not know is not given a part: `at` throws. -/
theorem node_missing {debug : Bool} {order : Order} {parts : List Nat} {z : Zone} {us : List (List Nat)} {face : List Nat}
    {i : Nat} (hi : i ∈ face) (hno : z.nodeMap i = none) : facePart debug order parts z us face = none := by
  have : faceUsers z us face = none := by
    unfold faceUsers
    generalize ([] : List Nat) = l
    induction face generalizing l with
    | nil => cases hi
    | cons a t ih =>
      rw [List.foldlM_cons]
      rcases List.mem_cons.1 hi with rfl | ht
      · rw [hno]; rfl
      · cases ha : z.nodeMap a with
        | none => rfl
        | some k =>
          cases hk : us[k]? with
          | none => simp [hk]
          | some u =>
            simp only [Option.bind_eq_bind, Option.bind_some, hk]
            exact ih ht _
  unfold facePart
  rw [this]
  rfl

example : facePart true id [0] ⟨fun _ => none, []⟩ [] [3] = none := node_missing (i := 3) (by simp) rfl

end MiniCFD.FaceParts
