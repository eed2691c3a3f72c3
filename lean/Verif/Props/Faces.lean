import Verif.Lemmas.FacesBuild

/-!
# Faces of a part join the right cells, point outward and are numbered in order

C69: local and ghost faces; C70: numbers of faces, boundary faces and their names.
-/

namespace MiniCFD.Faces

open MiniCFD.Shape
open MiniCFD.Spec.Faces

/-- What the builders rely on. -/
structure Ready (order : Order) (mesh : Mesh) (locals ghosts : List (Nat × Nat)) (lines : List Line) : Prop where
  sound : Sound mesh
  fair : Fair order
  locals : AllJoined mesh locals
  ghosts : AllGhostJoined mesh ghosts
  /-- The lines of the partition file come in increasing order of (zone, section), as the shuffler writes them. -/
  sorted : lines.Pairwise fun a b => a.zone < b.zone ∨ a.zone = b.zone ∧ a.sect < b.sect
  bounds : ∀ line ∈ lines, ∀ face ∈ line.faces, ∃ c, Holds mesh line face c

/-- The three stages, described at once. -/
theorem build_spec {order : Order} {mesh : Mesh} {locals ghosts : List (Nat × Nat)} {lines : List Line}
    (h : Ready order mesh locals ghosts lines) :
    ∃ st1 st b fs gs, build order mesh locals ghosts lines = some (st, b) ∧
      LocalDone mesh locals {} st1 fs ∧ GhostDone mesh ghosts st1 st gs ∧
      LinesDone mesh lines (locals.length + ghosts.length) b.faces ∧
      b.names = (lines.map fun l => (l.name, l.zone, l.sect)).reverse := by
  obtain ⟨st1, fs, h1, d1⟩ := local_done h.sound h.fair locals {} h.locals
  obtain ⟨st, gs, h2, d2⟩ := ghost_done h.sound h.fair ghosts st1 h.ghosts
  obtain ⟨rest, d3, h3⟩ := lines_done h.sound h.fair lines
    (h.sorted.imp fun h => by simpa [before] using h) h.bounds [] (st.localFaces.length + st.ghostFaces.length)
    [] (by simp)
  have e : st.localFaces.length + st.ghostFaces.length = locals.length + ghosts.length := by
    rw [d2.locals, d2.faces, d1.faces, d1.ghost]
    simp [d1.length, d2.length]
  refine ⟨st1, st, ⟨rest, st.localFaces.length + st.ghostFaces.length + (lines.map (·.faces.length)).sum,
      (lines.map fun l => (l.name, l.zone, l.sect)).reverse⟩, fs, gs, ?_, d1, d2, ?_, ?_⟩
  · simp only [build, h1, h2, buildBoundaryFaces, h3, Option.bind_eq_bind, Option.bind_some, List.nil_append,
      List.append_nil]
  · rw [← e]; exact d3
  · rfl

/-- The same, for a run which is given. -/
theorem build_spec' {order : Order} {mesh : Mesh} {locals ghosts : List (Nat × Nat)} {lines : List Line}
    (h : Ready order mesh locals ghosts lines) {st : State} {b : Bound}
    (hb : build order mesh locals ghosts lines = some (st, b)) :
    ∃ st1 fs gs, LocalDone mesh locals {} st1 fs ∧ GhostDone mesh ghosts st1 st gs ∧
      LinesDone mesh lines (locals.length + ghosts.length) b.faces ∧
      b.names = (lines.map fun l => (l.name, l.zone, l.sect)).reverse := by
  obtain ⟨st1, st', b', fs, gs, hb', h1, h2, h3, h4⟩ := build_spec h
  rw [hb, Option.some.injEq, Prod.mk.injEq] at hb'
  obtain ⟨rfl, rfl⟩ := hb'
  exact ⟨st1, fs, gs, h1, h2, h3, h4⟩

/-! ### C69 -/

/-- **C69** There is one local face for each pair of cells, in order: it has the nodes that the two have in common,
listed outward from the first, which is its holder, while the second is its sharer. -/
theorem local_faces {order : Order} {mesh : Mesh} {locals ghosts : List (Nat × Nat)} {lines : List Line}
    (h : Ready order mesh locals ghosts lines) :
    ∃ st b, build order mesh locals ghosts lines = some (st, b) ∧ st.localFaces.length = locals.length ∧
      ∀ (i : Nat) c d, Joined mesh c d → locals[i]? = some (c.m, d.m) →
        ∃ f, st.localFaces[i]? = some f ∧ IsFace f i c (shared c.nodes d.nodes) (some (.loc d.at')) := by
  obtain ⟨st1, st, b, fs, gs, hb, h1, h2, -, -⟩ := build_spec h
  refine ⟨st, b, hb, ?_, ?_⟩
  · rw [h2.locals, h1.faces]; simp [h1.length]
  · intro i c d hj hi
    obtain ⟨f, hf, hf'⟩ := h1.each i c d hj hi
    refine ⟨f, ?_, by simpa using hf'⟩
    rw [h2.locals, h1.faces]; simpa using hf

/-- **C69** There is one ghost face for each pair of a cell of this part and one of another, held by the former. -/
theorem ghost_faces {order : Order} {mesh : Mesh} {locals ghosts : List (Nat × Nat)} {lines : List Line}
    (h : Ready order mesh locals ghosts lines) :
    ∃ st b, build order mesh locals ghosts lines = some (st, b) ∧ st.ghostFaces.length = ghosts.length ∧
      ∀ (i : Nat) c m other, GhostJoined mesh c m other → ghosts[i]? = some (c.m, m) →
        ∃ f, st.ghostFaces[i]? = some f ∧ IsFace f (locals.length + i) c (shared c.nodes other) (some (.ghost m)) := by
  obtain ⟨st1, st, b, fs, gs, hb, h1, h2, -, -⟩ := build_spec h
  refine ⟨st, b, hb, ?_, ?_⟩
  · rw [h2.faces, h1.ghost]; simp [h2.length]
  · intro i c m other hj hi
    obtain ⟨f, hf, hf'⟩ := h2.each i c m other hj hi
    refine ⟨f, ?_, ?_⟩
    · rw [h2.faces, h1.ghost]; simpa using hf
    · have e : st1.localFaces.length + st1.ghostFaces.length + i = locals.length + i := by
        rw [h1.faces, h1.ghost]; simp [h1.length]
      rw [e] at hf'
      exact hf'

/-- **C69** A cell lists as adjacent exactly the cells it is paired with, once for each pair, first those of this
part and then those of others; and the faces between them, in the same order. -/
theorem adjacent_lists {order : Order} {mesh : Mesh} {locals ghosts : List (Nat × Nat)} {lines : List Line}
    (h : Ready order mesh locals ghosts lines) {st : State} {b : Bound}
    (hb : build order mesh locals ghosts lines = some (st, b)) (ref : Nat → Ref)
    (href : ∀ c ∈ mesh.cells, ref c.m = .loc c.at') (c : LocalCell) (hc : c ∈ mesh.cells) :
    st.adjCells (.loc c.at') = (partners c.m locals).map ref ++ (seconds c.m ghosts).map .ghost ∧
      st.adjFaces (.loc c.at') = (places 0 c.m locals).map .loc ++ (firstPlaces 0 c.m ghosts).map .ghost := by
  obtain ⟨st1, fs, gs, h1, h2, -, -⟩ := build_spec' h hb
  constructor
  · rw [h2.cells c hc, h1.cells ref href c hc]; rfl
  · rw [h2.adj c hc, h1.adj c hc, h1.ghost]; rfl

/-- **C69** Being adjacent is mutual among the cells of a part. -/
theorem adjacent_symmetric {order : Order} {mesh : Mesh} {locals ghosts : List (Nat × Nat)} {lines : List Line}
    (h : Ready order mesh locals ghosts lines) {st : State} {b : Bound}
    (hb : build order mesh locals ghosts lines = some (st, b)) (c d : LocalCell) (hc : c ∈ mesh.cells)
    (hd : d ∈ mesh.cells) :
    Ref.loc d.at' ∈ st.adjCells (.loc c.at') ↔ Ref.loc c.at' ∈ st.adjCells (.loc d.at') := by
  obtain ⟨st1, fs, gs, h1, h2, -, -⟩ := build_spec' h hb
  -- any function that gives the places of cells will do
  have href : ∀ c ∈ mesh.cells, ((mesh.index c.m).elim (Ref.ghost 0) Ref.loc) = .loc c.at' := by
    intro c hc; rw [index_eq h.sound hc]; rfl
  have key : ∀ c ∈ mesh.cells, ∀ d ∈ mesh.cells,
      (Ref.loc d.at' ∈ st.adjCells (.loc c.at') ↔ (c.m, d.m) ∈ locals ∨ (d.m, c.m) ∈ locals) := by
    intro c hc d hd
    rw [(adjacent_lists h hb (fun m => (mesh.index m).elim (Ref.ghost 0) Ref.loc) href c hc).1, List.mem_append]
    have hno : ¬Ref.loc d.at' ∈ (seconds c.m ghosts).map Ref.ghost := by
      intro hx; obtain ⟨_, _, hx⟩ := List.mem_map.1 hx; cases hx
    simp only [hno, or_false]
    rw [List.mem_map]
    constructor
    · rintro ⟨m, hm, he⟩
      obtain ⟨p, hp, hm⟩ := List.mem_flatMap.1 hm
      obtain ⟨x, y, rfl, hj⟩ := h.locals p hp
      rcases List.mem_append.1 hm with hm | hm
      · split_ifs at hm with hx
        · obtain rfl := List.mem_singleton.1 hm
          rw [href y hj.right, site_iff h.sound hj.right hd] at he
          simp only at hx
          left; rw [← hx, he]; exact hp
        · exact absurd hm List.not_mem_nil
      · split_ifs at hm with hx
        · obtain rfl := List.mem_singleton.1 hm
          rw [href x hj.left, site_iff h.sound hj.left hd] at he
          simp only at hx
          right; rw [← hx, he]; exact hp
        · exact absurd hm List.not_mem_nil
    · intro hm
      refine ⟨d.m, ?_, href d hd⟩
      rcases hm with hm | hm
      · exact List.mem_flatMap.2 ⟨_, hm, List.mem_append_left _ (by simp)⟩
      · exact List.mem_flatMap.2 ⟨_, hm, List.mem_append_right _ (by simp)⟩
  rw [key c hc d hd, key d hd c hc, or_comm]

/-- **C69** Whatever the mesh, once the faces have been built the `i`-th cell that a cell lists as adjacent is the one
across the `i`-th face it lists. -/
theorem adjacent_across {order : Order} {mesh : Mesh} {locals ghosts : List (Nat × Nat)} {lines : List Line} {st : State}
    {b : Bound} (hb : build order mesh locals ghosts lines = some (st, b)) (r : Ref) :
    List.Forall₂ (fun ptr q => ∃ f, st.face ptr = some f ∧ f.other r = some q) (st.adjFaces r) (st.adjCells r) := by
  simp only [build, Option.bind_eq_bind, Option.bind_eq_some_iff, Option.some.injEq] at hb
  obtain ⟨st1, h1, st2, h2, b', -, h3⟩ := hb
  obtain ⟨rfl, rfl⟩ := Prod.mk.inj h3
  have a0 : Across {} := fun r => List.Forall₂.nil
  have a1 := foldlM_inv (localStep order mesh) Across (fun _ _ _ => localStep_across) locals _ _ a0 h1
  exact foldlM_inv (ghostStep order mesh) Across (fun _ _ _ => ghostStep_across) ghosts _ _ a1 h2 r

/-- **C69** The two faces that two parts build for the same pair of cells have the same nodes; each part lists them
outward from its own cell. -/
theorem two_sides {order order' : Order} {mesh mesh' : Mesh} {locals ghosts locals' ghosts' : List (Nat × Nat)}
    {lines lines' : List Line} (h : Ready order mesh locals ghosts lines) (h' : Ready order' mesh' locals' ghosts' lines')
    {st st' : State} {b b' : Bound} (hb : build order mesh locals ghosts lines = some (st, b))
    (hb' : build order' mesh' locals' ghosts' lines' = some (st', b')) (c d : LocalCell)
    (hc : GhostJoined mesh c d.m d.nodes) (hd : GhostJoined mesh' d c.m c.nodes) (i j : Nat)
    (hi : ghosts[i]? = some (c.m, d.m)) (hj : ghosts'[j]? = some (d.m, c.m)) :
    ∃ f g, st.ghostFaces[i]? = some f ∧ st'.ghostFaces[j]? = some g ∧ f.nodes.Perm g.nodes ∧
      Outward c.nodes f.nodes ∧ Outward d.nodes g.nodes ∧ f.kind = g.kind := by
  obtain ⟨s1, b1, e1, -, h1⟩ := ghost_faces h
  obtain ⟨s2, b2, e2, -, h2⟩ := ghost_faces h'
  rw [hb, Option.some.injEq, Prod.mk.injEq] at e1
  rw [hb', Option.some.injEq, Prod.mk.injEq] at e2
  obtain ⟨rfl, rfl⟩ := e1
  obtain ⟨rfl, rfl⟩ := e2
  obtain ⟨f, hf, hf'⟩ := h1 i c d.m d.nodes hc hi
  obtain ⟨g, hg, hg'⟩ := h2 j d c.m c.nodes hd hj
  have hp : (shared c.nodes d.nodes).Perm (shared d.nodes c.nodes) := by
    refine (List.perm_ext_iff_of_nodup (hd.nodup.filter _) (hc.nodup.filter _)).2 fun x => ?_
    simp [and_comm]
  have hp := (hf'.nodes.trans hp).trans hg'.nodes.symm
  refine ⟨f, g, hf, hg, hp, hf'.outward, hg'.outward, ?_⟩
  have := hp.length_eq
  rcases hf'.kind with ⟨k1, l1⟩ | ⟨k1, l1⟩ <;> rcases hg'.kind with ⟨k2, l2⟩ | ⟨k2, l2⟩
  · rw [k1, k2]
  · omega
  · omega
  · rw [k1, k2]

theorem foldlM_congr {α β : Type} (f g : β → α → Option β) (l : List α) (h : ∀ a ∈ l, ∀ b, f b a = g b a) :
    ∀ b, l.foldlM f b = l.foldlM g b := by
  induction l with
  | nil => intro b; rfl
  | cons a t ih =>
    intro b
    rw [List.foldlM_cons, List.foldlM_cons, h a List.mem_cons_self]
    congr 1
    funext b'
    exact ih (fun x hx => h x (List.mem_cons_of_mem _ hx)) b'

/-- **C69** The order in which hash maps are walked has no effect. -/
theorem hash_irrelevant {order order' : Order} {mesh : Mesh} {locals ghosts : List (Nat × Nat)} {lines : List Line}
    (h : Ready order mesh locals ghosts lines) (ho' : Fair order') :
    build order' mesh locals ghosts lines = build order mesh locals ghosts lines := by
  have ho := h.fair
  have hm := h.sound
  have h1 : ∀ st, buildLocalFaces order' mesh locals st = buildLocalFaces order mesh locals st := by
    refine foldlM_congr _ _ _ ?_
    intro p hp st
    obtain ⟨c, d, rfl, hj⟩ := h.locals p hp
    have hd : ({ d.at' with zone := c.at'.zone } : Index) = d.at' := by rw [hj.zone]
    have e : ∀ o, Fair o → sortFace c.nodes (commonNodes o c.nodes d.nodes) = sortFace c.nodes (shared c.nodes d.nodes) :=
      fun o ho => sortFace_perm (hm.nodes c hj.left) hj.side
        (commonNodes_perm o ho c.nodes d.nodes (hm.nodes c hj.left) (hm.nodes d hj.right))
    simp only [localStep, index_eq hm hj.left, index_eq hm hj.right, Option.bind_eq_bind, Option.bind_some, hd,
      row_eq hm hj.left, row_eq hm hj.right, e order ho, e order' ho']
  have h2 : ∀ st, buildGhostFaces order' mesh ghosts st = buildGhostFaces order mesh ghosts st := by
    refine foldlM_congr _ _ _ ?_
    intro p hp st
    obtain ⟨c, other, hpp, hj⟩ := h.ghosts p hp
    obtain ⟨p1, m⟩ := p
    obtain rfl : p1 = c.m := (Prod.mk.inj hpp).1
    simp only at hj
    have e : ∀ o, Fair o → sortFace c.nodes (commonNodes o c.nodes other) = sortFace c.nodes (shared c.nodes other) :=
      fun o ho => sortFace_perm (hm.nodes c hj.left) hj.side
        (commonNodes_perm o ho c.nodes other (hm.nodes c hj.left) hj.nodup)
    simp only [ghostStep, index_eq hm hj.left, Option.bind_eq_bind, Option.bind_some, hj.right,
      row_eq hm hj.left, e order ho, e order' ho']
  have h3 : ∀ st, buildBoundaryFaces order' mesh lines st = buildBoundaryFaces order mesh lines st := by
    intro st
    refine foldlM_congr _ _ _ ?_ _
    intro line hline b
    refine foldlM_congr _ _ _ ?_ _
    intro face hface b
    obtain ⟨c, hc⟩ := h.bounds line hline face hface
    have h0 : line.npe ≠ 0 := by
      have := side_length hc.side
      have := hc.length
      omega
    have e : ∀ o, Fair o → holderOf o mesh line.zone line.npe face = some c.m := fun o ho =>
      holderOf_eq hm o ho line.zone line.npe face hc.length h0 hc.mem hc.zone (side_mem hc.side) hc.only
    simp only [boundaryFace, e order ho, e order' ho']
  simp only [build, h1, h2, h3]

/-! ### C70 -/

/-- The faces of the lines, in order. -/
def inOrder (lines : List Line) : List (Line × List Nat) := lines.flatMap fun l => l.faces.map fun f => (l, f)

theorem lines_all {mesh : Mesh} {lines : List Line} {start : Nat} {F : List ((Nat × Nat) × List Face)}
    (h : LinesDone mesh lines start F) :
    (F.flatMap (·.2)).length = (inOrder lines).length ∧
    ∀ (i : Nat) line face c, (inOrder lines)[i]? = some (line, face) → Holds mesh line face c →
      ∃ f, (F.flatMap (·.2))[i]? = some f ∧ IsFace f (start + i) c face none := by
  induction h with
  | nil => simp [inOrder]
  | @cons line lines start fs rest h h' ih =>
    obtain ⟨ih1, ih2⟩ := ih
    have hlen : (line.faces.map fun f => (line, f)).length = fs.length := by rw [List.length_map, h.length]
    constructor
    · simp only [inOrder, List.flatMap_cons, List.length_append, hlen]
      rw [ih1]; rfl
    · intro i line' face c hi hc
      simp only [inOrder, List.flatMap_cons] at hi ⊢
      by_cases hlt : i < fs.length
      · rw [List.getElem?_append_left (hlen ▸ hlt), List.getElem?_map, Option.map_eq_some_iff] at hi
        obtain ⟨face', hf, he⟩ := hi
        obtain ⟨rfl, rfl⟩ := Prod.mk.inj he
        obtain ⟨f, hf1, hf2⟩ := h.each i _ c hf hc
        exact ⟨f, by rw [List.getElem?_append_left hlt]; exact hf1, hf2⟩
      · have hle : fs.length ≤ i := Nat.le_of_not_lt hlt
        rw [List.getElem?_append_right (hlen ▸ hle), hlen] at hi
        obtain ⟨f, hf1, hf2⟩ := ih2 _ line' face c hi hc
        refine ⟨f, by rw [List.getElem?_append_right hle]; exact hf1, ?_⟩
        have e : start + line.faces.length + (i - fs.length) = start + i := by rw [← h.length]; omega
        rw [e] at hf2
        exact hf2

/-- **C70** `GetBoundaryFaces()` gives one face for each boundary face of this part in the file, in the order of the
file: it has the nodes given there, listed outward from its holder, the one cell of which they are a side. -/
theorem boundary_faces {order : Order} {mesh : Mesh} {locals ghosts : List (Nat × Nat)} {lines : List Line}
    (h : Ready order mesh locals ghosts lines) :
    ∃ st b, build order mesh locals ghosts lines = some (st, b) ∧ b.all.length = (inOrder lines).length ∧
      ∀ (i : Nat) line face c, (inOrder lines)[i]? = some (line, face) → Holds mesh line face c →
        ∃ f, b.all[i]? = some f ∧ IsFace f (locals.length + ghosts.length + i) c face none := by
  obtain ⟨st1, st, b, fs, gs, hb, -, -, h3, -⟩ := build_spec h
  obtain ⟨ha, hb'⟩ := lines_all h3
  exact ⟨st, b, hb, ha, hb'⟩

/-- **C70** All faces, local, ghost and boundary ones, are numbered from zero on, in the order in which they are
visited. -/
theorem face_ids {order : Order} {mesh : Mesh} {locals ghosts : List (Nat × Nat)} {lines : List Line}
    (h : Ready order mesh locals ghosts lines) {st : State} {b : Bound}
    (hb : build order mesh locals ghosts lines = some (st, b)) :
    (st.localFaces ++ st.ghostFaces ++ b.all).map (·.id) =
      List.range (locals.length + ghosts.length + (inOrder lines).length) := by
  obtain ⟨s1, b1, e1, l1, h1⟩ := local_faces h
  obtain ⟨s2, b2, e2, l2, h2⟩ := ghost_faces h
  obtain ⟨s3, b3, e3, l3, h3⟩ := boundary_faces h
  rw [hb, Option.some.injEq, Prod.mk.injEq] at e1 e2 e3
  obtain ⟨rfl, rfl⟩ := e1
  obtain ⟨rfl, -⟩ := e2
  obtain ⟨-, rfl⟩ := e3
  refine List.ext_getElem? fun i => ?_
  rw [List.getElem?_map]
  by_cases hA : i < locals.length
  · obtain ⟨c, d, hp, hj⟩ := h.locals locals[i] (List.getElem_mem hA)
    obtain ⟨f, hf, hf'⟩ := h1 i c d hj (by rw [List.getElem?_eq_getElem hA, hp])
    rw [List.append_assoc, List.getElem?_append_left (by omega), hf, List.getElem?_range (by omega)]
    simp [hf'.id]
  · by_cases hB : i < locals.length + ghosts.length
    · have hi : i - locals.length < ghosts.length := by omega
      obtain ⟨c, other, hp, hj⟩ := h.ghosts ghosts[i - locals.length] (List.getElem_mem hi)
      obtain ⟨f, hf, hf'⟩ := h2 (i - locals.length) c _ other hj (by rw [List.getElem?_eq_getElem hi, hp])
      rw [List.append_assoc, List.getElem?_append_right (by omega), l1, List.getElem?_append_left (by omega), hf,
        List.getElem?_range (by omega)]
      simp only [Option.map_some, hf'.id, Option.some.injEq]
      omega
    · rw [List.getElem?_append_right (by simp [l1, l2]; omega)]
      simp only [List.length_append, l1, l2]
      by_cases hC : i - (locals.length + ghosts.length) < (inOrder lines).length
      · have hmem := List.getElem_mem hC
        obtain ⟨line, hline, hmem⟩ := List.mem_flatMap.1 hmem
        obtain ⟨face, hface, he⟩ := List.mem_map.1 hmem
        obtain ⟨c, hc⟩ := h.bounds line hline face hface
        obtain ⟨f, hf, hf'⟩ := h3 (i - (locals.length + ghosts.length)) line face c
          (by rw [List.getElem?_eq_getElem hC, ← he]) hc
        rw [hf, List.getElem?_range (by omega)]
        simp only [Option.map_some, hf'.id, Option.some.injEq]
        omega
      · rw [List.getElem?_eq_none (by omega), List.getElem?_eq_none (by simp; omega)]
        rfl

theorem lines_split {mesh : Mesh} {pre post : List Line} {line : Line} : ∀ {start : Nat}
    {F : List ((Nat × Nat) × List Face)}, LinesDone mesh (pre ++ line :: post) start F →
    ∃ F1 fs F2, F = F1 ++ ((line.zone, line.sect), fs) :: F2 ∧ F1.map (·.1) = pre.map (fun l => (l.zone, l.sect)) ∧
      LineDone mesh line line.faces (start + (inOrder pre).length) fs := by
  induction pre with
  | nil =>
    intro start F h
    cases h with
    | cons h h' => exact ⟨[], _, _, rfl, rfl, by simpa [inOrder] using h⟩
  | cons l t ih =>
    intro start F h
    rw [List.cons_append] at h
    cases h with
    | cons h h' =>
      obtain ⟨F1, fs, F2, rfl, hk, hd⟩ := ih h'
      refine ⟨_ :: F1, fs, F2, rfl, by simp [hk], ?_⟩
      have e : start + l.faces.length + (inOrder t).length = start + (inOrder (l :: t)).length := by
        simp [inOrder, Nat.add_assoc]
      rw [← e]; exact hd

/-- **C70** `GetBoundaryFaces(name)` gives the faces of the last section of that name, with the numbers that they have
among all. -/
theorem named_faces {order : Order} {mesh : Mesh} {locals ghosts : List (Nat × Nat)} {pre post : List Line} {line : Line}
    (h : Ready order mesh locals ghosts (pre ++ line :: post)) (hlast : ∀ l ∈ post, l.name ≠ line.name) :
    ∃ st b fs, build order mesh locals ghosts (pre ++ line :: post) = some (st, b) ∧ b.named line.name = some fs ∧
      fs.length = line.faces.length ∧
      ∀ (i : Nat) face c, line.faces[i]? = some face → Holds mesh line face c →
        ∃ f, fs[i]? = some f ∧ IsFace f (locals.length + ghosts.length + (inOrder pre).length + i) c face none := by
  obtain ⟨st1, st, b, -, -, hb, -, -, h3, h4⟩ := build_spec h
  obtain ⟨F1, fs, F2, hF, hk, hd⟩ := lines_split h3
  refine ⟨st, b, fs, hb, ?_, hd.length, fun i face c hi hc => hd.each i face c hi hc⟩
  unfold Bound.named
  have hname : b.names.find? (fun e => decide (e.1 = line.name)) = some (line.name, line.zone, line.sect) := by
    rw [h4, List.map_append, List.reverse_append, List.map_cons, List.reverse_cons, List.append_assoc, List.find?_append,
      List.find?_eq_none.2]
    · simp
    · intro e he
      obtain ⟨l, hl, rfl⟩ := List.mem_map.1 (List.mem_reverse.1 he)
      simpa using hlast l hl
  have hface : b.faces.find? (fun f => decide (f.1 = (line.zone, line.sect))) = some ((line.zone, line.sect), fs) := by
    rw [hF, List.find?_append, List.find?_eq_none.2]
    · simp
    · intro e he
      have he : e.1 ∈ F1.map (·.1) := List.mem_map_of_mem he
      rw [hk] at he
      obtain ⟨l, hl, hle⟩ := List.mem_map.1 he
      have := (List.pairwise_append.1 h.sorted).2.2 l hl line List.mem_cons_self
      intro hc
      have hc : e.1 = (line.zone, line.sect) := by simpa using hc
      rw [hc, Prod.mk.injEq] at hle
      omega
  simp only [hname, Option.bind_eq_bind, Option.bind_some, hface]

/-- **C70** An unknown name throws. -/
theorem named_unknown {order : Order} {mesh : Mesh} {locals ghosts : List (Nat × Nat)} {lines : List Line}
    (h : Ready order mesh locals ghosts lines) (name : String) (hno : ∀ l ∈ lines, l.name ≠ name) :
    ∃ st b, build order mesh locals ghosts lines = some (st, b) ∧ b.named name = none := by
  obtain ⟨st1, st, b, -, -, hb, -, -, -, h4⟩ := build_spec h
  refine ⟨st, b, hb, ?_⟩
  have : b.names.find? (fun e => decide (e.1 = name)) = none := by
    rw [h4, List.find?_eq_none]
    intro e he
    obtain ⟨l, hl, rfl⟩ := List.mem_map.1 (List.mem_reverse.1 he)
    simpa using hno l hl
  simp [Bound.named, this]

/-- **C70** If no cell of this part in the zone has all nodes of a boundary face, an uninitialised pointer is used. -/
theorem holder_missing {order : Order} {mesh : Mesh} {lines : List Line} {line : Line} {face : List Nat} {st : State}
    (hm : Sound mesh) (ho : Fair order) (hl : line ∈ lines) (hf : face ∈ line.faces) (hn : face.length = line.npe)
    (h0 : face ≠ []) (hno : ∀ d ∈ mesh.cells, d.at'.zone = line.zone → ¬∀ x ∈ face, x ∈ d.nodes) :
    buildBoundaryFaces order mesh lines st = none := by
  have hnone : ∀ {α β : Type} (g : β → α → Option β) (l : List α) (a : α), a ∈ l → (∀ b, g b a = none) →
      ∀ b, l.foldlM g b = none := by
    intro α β g l a ha hg
    induction l with
    | nil => exact absurd ha List.not_mem_nil
    | cons x t ih =>
      intro b
      rw [List.foldlM_cons]
      rcases List.mem_cons.1 ha with rfl | ha
      · rw [hg]; rfl
      · cases g b x with
        | none => rfl
        | some b' => exact ih ha b'
  refine hnone _ lines line hl ?_ _
  intro b
  refine hnone _ line.faces face hf ?_ _
  intro b
  have h0' : line.npe ≠ 0 := by
    rw [← hn]; simpa using h0
  simp [boundaryFace, holderOf_none hm order ho line.zone line.npe face hn h0' hno]

/-! ### A mesh -/

/-- Two hexahedra on top of each other and a wedge beside the upper one; above is a hexahedron of another part. -/
def stack : Mesh where
  cells := [⟨7, ⟨1, 1, 1⟩, [1, 2, 3, 4, 5, 6, 7, 8]⟩, ⟨5, ⟨1, 1, 2⟩, [5, 6, 7, 8, 9, 10, 11, 12]⟩,
    ⟨9, ⟨1, 2, 3⟩, [6, 13, 7, 10, 14, 11]⟩]
  ghosts := fun m => if m = 3 then some [9, 10, 11, 12, 15, 16, 17, 18] else none

/-- The bottom, and two sides of the wedge. -/
def stackLines : List Line := [⟨1, 3, "bottom", 4, [[1, 2, 3, 4]]⟩, ⟨1, 4, "side", 4, [[6, 13, 14, 10], [7, 13, 14, 11]]⟩]

theorem stack_ready : Ready id stack [(7, 5), (5, 9)] [(5, 3)] stackLines where
  sound := ⟨by decide, by decide, by decide⟩
  fair := fun _ => List.Perm.refl _
  locals := by
    intro p hp
    rcases List.mem_cons.1 hp with rfl | hp
    · exact ⟨stack.cells[0], stack.cells[1], rfl, by decide, by decide, by decide,
        .hexahedron, rfl, (0, 0, -1, 4), by decide, by decide⟩
    · obtain rfl := List.mem_singleton.1 hp
      exact ⟨stack.cells[1], stack.cells[2], rfl, by decide, by decide, by decide,
        .hexahedron, rfl, (-1, 0, 0, 4), by decide, by decide⟩
  ghosts := by
    intro p hp
    obtain rfl := List.mem_singleton.1 hp
    exact ⟨stack.cells[1], [9, 10, 11, 12, 15, 16, 17, 18], rfl, by decide, rfl, by decide,
      .hexahedron, rfl, (0, 0, -1, 4), by decide, by decide⟩
  sorted := by decide
  bounds := by
    intro line hl face hf
    rcases List.mem_cons.1 hl with rfl | hl
    · obtain rfl := List.mem_singleton.1 hf
      exact ⟨stack.cells[0], by decide, by decide, rfl,
        ⟨.hexahedron, rfl, (0, 0, 1, 4), by decide, by decide⟩, by decide⟩
    · obtain rfl := List.mem_singleton.1 hl
      rcases List.mem_cons.1 hf with rfl | hf
      · exact ⟨stack.cells[2], by decide, by decide, rfl,
          ⟨.wedge, rfl, (0, 1, 0, 0), by decide, by decide⟩, by decide⟩
      · obtain rfl := List.mem_singleton.1 hf
        exact ⟨stack.cells[2], by decide, by decide, rfl,
          ⟨.wedge, rfl, (-1, -1, 0, 4), by decide, by decide⟩, by decide⟩

/-- What is built for it. -/
example : ∃ st b, build id stack [(7, 5), (5, 9)] [(5, 3)] stackLines = some (st, b) ∧
    st.localFaces.map (·.nodes) = [[5, 6, 7, 8], [6, 7, 11, 10]] ∧ st.ghostFaces.map (·.nodes) = [[9, 10, 11, 12]] ∧
    b.all.map (fun f => (f.id, f.nodes)) = [(3, [1, 4, 3, 2]), (4, [6, 13, 14, 10]), (5, [13, 7, 11, 14])] ∧
    st.adjCells (.loc ⟨1, 1, 2⟩) = [.loc ⟨1, 1, 1⟩, .loc ⟨1, 2, 3⟩, .ghost 3] ∧
    st.adjFaces (.loc ⟨1, 1, 2⟩) = [.loc 0, .loc 1, .ghost 0] :=
  ⟨_, _, rfl, rfl, rfl, rfl, rfl, rfl⟩

example : ∃ st b, build id stack [(7, 5), (5, 9)] [(5, 3)] stackLines = some (st, b) ∧
    (st.localFaces ++ st.ghostFaces ++ b.all).map (·.id) = List.range 6 := by
  obtain ⟨st, b, hb, -, -⟩ := local_faces stack_ready
  exact ⟨st, b, hb, face_ids stack_ready hb⟩

example : ∃ st b fs, build id stack [(7, 5), (5, 9)] [(5, 3)] stackLines = some (st, b) ∧ b.named "side" = some fs ∧
    fs.length = 2 := by
  obtain ⟨st, b, fs, h1, h2, h3, -⟩ := named_faces (pre := [stackLines[0]]) (post := []) (line := stackLines[1])
    stack_ready (by simp)
  exact ⟨st, b, fs, h1, h2, h3⟩

/-! ### What goes wrong otherwise -/

/-- **C70** If the lines do not come in order, boundary faces are not visited by number: the caches of the flux
reconstruction schemes, filled in the order of visits and read by number, would mix them up. -/
theorem lines_out_of_order : ∃ st b, build id stack [(7, 5), (5, 9)] [(5, 3)] stackLines.reverse = some (st, b) ∧
    b.all.map (·.id) = [5, 3, 4] := ⟨_, _, rfl, rfl⟩

/-- **C70** Of two sections with the same name only the later can be had by name. -/
theorem same_name : ∃ st b, build id stack [(7, 5), (5, 9)] [(5, 3)] (stackLines.map fun l => { l with name := "wall" }) =
    some (st, b) ∧ (b.named "wall").map (·.map (·.id)) = some [4, 5] ∧ b.all.length = 3 := ⟨_, _, rfl, rfl, rfl⟩

/-- **C70** The holder of a "boundary" face between two cells of the part depends on how the hash map is walked. -/
theorem holder_by_chance : ∃ order order' : Order, Fair order ∧ Fair order' ∧
    holderOf order stack 1 4 [5, 6, 7, 8] = some 7 ∧ holderOf order' stack 1 4 [5, 6, 7, 8] = some 5 :=
  ⟨id, List.reverse, fun _ => List.Perm.refl _, fun _ => List.reverse_perm _, rfl, rfl⟩

/-- **C69** A cell with a repeated node is not joined properly: the repeated node counts as a common one. -/
theorem repeated_node : commonNodes id [1, 2, 3, 3, 5, 6, 7, 8] [5, 6, 7, 8, 9, 10, 11, 12] = [3, 5, 6, 7, 8] := rfl

/-- **C69** Cells of different zones are not joined: the second one is looked for in the zone of the first. -/
theorem across_zones (order : Order) {mesh : Mesh} (hm : Sound mesh) (st : State) {c d : LocalCell} (hc : c ∈ mesh.cells)
    (hd : d ∈ mesh.cells) (hno : ∀ e ∈ mesh.cells, e.at' ≠ { d.at' with zone := c.at'.zone }) :
    localStep order mesh st (c.m, d.m) = none := by
  have : mesh.row { d.at' with zone := c.at'.zone } = none := by
    unfold Mesh.row
    rw [Option.map_eq_none_iff, List.find?_eq_none]
    intro e he
    simpa using hno e he
  simp [localStep, index_eq hm hc, index_eq hm hd, row_eq hm hc, this]

/-- Two tetrahedra with the same nodes in two zones. -/
example : localStep id ⟨[⟨1, ⟨1, 1, 1⟩, [1, 2, 3, 4]⟩, ⟨2, ⟨2, 1, 2⟩, [1, 2, 3, 5]⟩], fun _ => none⟩ {} (1, 2) = none :=
  across_zones id (c := ⟨1, ⟨1, 1, 1⟩, [1, 2, 3, 4]⟩) (d := ⟨2, ⟨2, 1, 2⟩, [1, 2, 3, 5]⟩)
    ⟨by decide, by decide, by decide⟩ {} (by simp) (by simp) (by simp)

end MiniCFD.Faces
