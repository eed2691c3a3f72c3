import Verif.Lemmas.Faces
import Mathlib.Data.List.Forall2

/-!
# Lemmas about running the three builders of faces
-/

set_option linter.unusedSimpArgs false

namespace MiniCFD.Faces

open MiniCFD.Shape
open MiniCFD.Spec.Faces

/-- `f` is the face with number `id` between the cell `c` and what is beyond, with these nodes. -/
structure IsFace (f : Face) (id : Nat) (c : LocalCell) (face : List Nat) (beyond : Option Ref) : Prop where
  id : f.id = id
  zone : f.zone = c.at'.zone
  holder : f.holder = .loc c.at'
  sharer : f.sharer = beyond
  nodes : f.nodes.Perm face
  outward : Outward c.nodes f.nodes
  kind : f.kind = .triangle3 ∧ f.nodes.length = 3 ∨ f.kind = .quadrangle4 ∧ f.nodes.length = 4

/-- Two cells of the same zone that have the nodes of a side of the first in common. -/
structure Joined (mesh : Mesh) (c d : LocalCell) : Prop where
  left : c ∈ mesh.cells
  right : d ∈ mesh.cells
  zone : c.at'.zone = d.at'.zone
  side : Side c.nodes (shared c.nodes d.nodes)

/-- A cell of this part and one of another that have the nodes of a side of the first in common. -/
structure GhostJoined (mesh : Mesh) (c : LocalCell) (m : Nat) (nodes : List Nat) : Prop where
  left : c ∈ mesh.cells
  right : mesh.ghosts m = some nodes
  nodup : nodes.Nodup
  side : Side c.nodes (shared c.nodes nodes)

theorem localStep_spec {mesh : Mesh} (hm : Sound mesh) {order : Order} (ho : Fair order) (st : State) {c d : LocalCell}
    (h : Joined mesh c d) :
    ∃ f, IsFace f st.localFaces.length c (shared c.nodes d.nodes) (some (.loc d.at')) ∧
      localStep order mesh st (c.m, d.m) = some { st with
        localFaces := st.localFaces ++ [f]
        adjCells := push (push st.adjCells (.loc c.at') (.loc d.at')) (.loc d.at') (.loc c.at')
        adjFaces := push (push st.adjFaces (.loc c.at') (.loc st.localFaces.length)) (.loc d.at')
          (.loc st.localFaces.length) } := by
  have hp := commonNodes_perm order ho c.nodes d.nodes (hm.nodes c h.left) (hm.nodes d h.right)
  obtain ⟨k, nodes, hs, h1, h2, h3⟩ := sortFace_spec (hm.nodes c h.left) h.side
  have hs' := (sortFace_perm (hm.nodes c h.left) h.side hp).trans hs
  have hd : ({ d.at' with zone := c.at'.zone } : Index) = d.at' := by rw [h.zone]
  refine ⟨⟨st.localFaces.length, c.at'.zone, k, nodes, .loc c.at', some (.loc d.at')⟩,
    ⟨rfl, rfl, rfl, rfl, h1, h2, h3⟩, ?_⟩
  simp only [localStep, index_eq hm h.left, index_eq hm h.right, Option.bind_eq_bind, Option.bind_some, hd,
    row_eq hm h.left, row_eq hm h.right, hs']

theorem ghostStep_spec {mesh : Mesh} (hm : Sound mesh) {order : Order} (ho : Fair order) (st : State) {c : LocalCell}
    {m : Nat} {other : List Nat} (h : GhostJoined mesh c m other) :
    ∃ f, IsFace f (st.localFaces.length + st.ghostFaces.length) c (shared c.nodes other) (some (.ghost m)) ∧
      ghostStep order mesh st (c.m, m) = some { st with
        ghostFaces := st.ghostFaces ++ [f]
        adjCells := push st.adjCells (.loc c.at') (.ghost m)
        adjFaces := push st.adjFaces (.loc c.at') (.ghost st.ghostFaces.length) } := by
  have hp := commonNodes_perm order ho c.nodes other (hm.nodes c h.left) h.nodup
  obtain ⟨k, nodes, hs, h1, h2, h3⟩ := sortFace_spec (hm.nodes c h.left) h.side
  have hs' := (sortFace_perm (hm.nodes c h.left) h.side hp).trans hs
  refine ⟨⟨st.localFaces.length + st.ghostFaces.length, c.at'.zone, k, nodes, .loc c.at', some (.ghost m)⟩,
    ⟨rfl, rfl, rfl, rfl, h1, h2, h3⟩, ?_⟩
  simp only [ghostStep, index_eq hm h.left, Option.bind_eq_bind, Option.bind_some, row_eq hm h.left, h.right, hs']

/-- All pairs are of joined cells. -/
def AllJoined (mesh : Mesh) (pairs : List (Nat × Nat)) : Prop :=
  ∀ p ∈ pairs, ∃ c d, p = (c.m, d.m) ∧ Joined mesh c d

/-- All pairs are of a cell and a ghost joined to it. -/
def AllGhostJoined (mesh : Mesh) (pairs : List (Nat × Nat)) : Prop :=
  ∀ p ∈ pairs, ∃ c other, p = (c.m, p.2) ∧ GhostJoined mesh c p.2 other

/-- What `BuildLocalFaces` did. -/
structure LocalDone (mesh : Mesh) (pairs : List (Nat × Nat)) (st st' : State) (fs : List Face) : Prop where
  faces : st'.localFaces = st.localFaces ++ fs
  length : fs.length = pairs.length
  each : ∀ (i : Nat) c d, Joined mesh c d → pairs[i]? = some (c.m, d.m) →
    ∃ f, fs[i]? = some f ∧ IsFace f (st.localFaces.length + i) c (shared c.nodes d.nodes) (some (.loc d.at'))
  ghost : st'.ghostFaces = st.ghostFaces
  cells : ∀ ref : Nat → Ref, (∀ c ∈ mesh.cells, ref c.m = .loc c.at') → ∀ c ∈ mesh.cells,
    st'.adjCells (.loc c.at') = st.adjCells (.loc c.at') ++ (partners c.m pairs).map ref
  adj : ∀ c ∈ mesh.cells,
    st'.adjFaces (.loc c.at') = st.adjFaces (.loc c.at') ++ (places st.localFaces.length c.m pairs).map .loc

theorem push_two {α : Type} {mesh : Mesh} (hm : Sound mesh) (A : Ref → List α) {c d e : LocalCell} (hc : c ∈ mesh.cells)
    (hd : d ∈ mesh.cells) (he : e ∈ mesh.cells) (x y : α) :
    push (push A (.loc c.at') x) (.loc d.at') y (.loc e.at') =
      A (.loc e.at') ++ ((if c.m = e.m then [x] else []) ++ (if d.m = e.m then [y] else [])) := by
  simp only [push, site_iff hm he hc, site_iff hm he hd]
  split_ifs <;> simp

theorem push_one {α : Type} {mesh : Mesh} (hm : Sound mesh) (A : Ref → List α) {c e : LocalCell} (hc : c ∈ mesh.cells)
    (he : e ∈ mesh.cells) (x : α) :
    push A (.loc c.at') x (.loc e.at') = A (.loc e.at') ++ (if c.m = e.m then [x] else []) := by
  simp only [push, site_iff hm he hc]
  split_ifs <;> simp

theorem local_done {mesh : Mesh} (hm : Sound mesh) {order : Order} (ho : Fair order) (pairs : List (Nat × Nat)) :
    ∀ st, AllJoined mesh pairs →
      ∃ st' fs, buildLocalFaces order mesh pairs st = some st' ∧ LocalDone mesh pairs st st' fs := by
  induction pairs with
  | nil =>
    intro st _
    refine ⟨st, [], rfl, ⟨by simp, rfl, ?_, rfl, ?_, ?_⟩⟩
    · intro i c d _ h; simp at h
    · intro ref _ c _; simp [partners]
    · intro c _; simp [places]
  | cons p t ih =>
    intro st hall
    obtain ⟨c, d, rfl, hj⟩ := hall p List.mem_cons_self
    obtain ⟨f, hf, hstep⟩ := localStep_spec hm ho st hj
    obtain ⟨st', fs, hrun, hd⟩ := ih { st with
        localFaces := st.localFaces ++ [f]
        adjCells := push (push st.adjCells (.loc c.at') (.loc d.at')) (.loc d.at') (.loc c.at')
        adjFaces := push (push st.adjFaces (.loc c.at') (.loc st.localFaces.length)) (.loc d.at')
          (.loc st.localFaces.length) } fun q hq => hall q (List.mem_cons_of_mem _ hq)
    refine ⟨st', f :: fs, ?_, ⟨?_, ?_, ?_, hd.ghost, ?_, ?_⟩⟩
    · unfold buildLocalFaces
      rw [List.foldlM_cons, hstep]
      exact hrun
    · rw [hd.faces]; simp
    · simp [hd.length]
    · intro i c' d' hj' hi
      cases i with
      | zero =>
        rw [List.getElem?_cons_zero, Option.some.injEq, Prod.mk.injEq] at hi
        obtain rfl := eq_of_id hm hj.left hj'.left hi.1
        obtain rfl := eq_of_id hm hj.right hj'.right hi.2
        exact ⟨f, rfl, hf⟩
      | succ i =>
        rw [List.getElem?_cons_succ] at hi
        obtain ⟨g, hg, hg'⟩ := hd.each i c' d' hj' hi
        refine ⟨g, by simpa using hg, ?_⟩
        have e : (st.localFaces ++ [f]).length + i = st.localFaces.length + (i + 1) := by simp; omega
        simp only at hg'
        rw [e] at hg'
        exact hg'
    · intro ref href e he
      rw [hd.cells ref href e he]
      simp only
      rw [push_two hm _ hj.left hj.right he]
      simp only [partners, List.flatMap_cons, List.map_append, List.append_assoc]
      rw [← href c hj.left, ← href d hj.right]
      congr 1
      split_ifs <;> simp
    · intro e he
      rw [hd.adj e he]
      simp only
      rw [push_two hm _ hj.left hj.right he]
      simp only [places, List.zipIdx_cons, List.flatMap_cons, List.map_append, List.append_assoc, List.length_append,
        List.length_singleton]
      congr 1
      split_ifs <;> simp

/-- What `BuildGhostFaces` did. -/
structure GhostDone (mesh : Mesh) (pairs : List (Nat × Nat)) (st st' : State) (fs : List Face) : Prop where
  faces : st'.ghostFaces = st.ghostFaces ++ fs
  length : fs.length = pairs.length
  each : ∀ (i : Nat) c m other, GhostJoined mesh c m other → pairs[i]? = some (c.m, m) →
    ∃ f, fs[i]? = some f ∧
      IsFace f (st.localFaces.length + st.ghostFaces.length + i) c (shared c.nodes other) (some (.ghost m))
  locals : st'.localFaces = st.localFaces
  cells : ∀ c ∈ mesh.cells,
    st'.adjCells (.loc c.at') = st.adjCells (.loc c.at') ++ (seconds c.m pairs).map .ghost
  adj : ∀ c ∈ mesh.cells,
    st'.adjFaces (.loc c.at') = st.adjFaces (.loc c.at') ++ (firstPlaces st.ghostFaces.length c.m pairs).map .ghost

theorem ghost_done {mesh : Mesh} (hm : Sound mesh) {order : Order} (ho : Fair order) (pairs : List (Nat × Nat)) :
    ∀ st, AllGhostJoined mesh pairs →
      ∃ st' fs, buildGhostFaces order mesh pairs st = some st' ∧ GhostDone mesh pairs st st' fs := by
  induction pairs with
  | nil =>
    intro st _
    refine ⟨st, [], rfl, ⟨by simp, rfl, ?_, rfl, ?_, ?_⟩⟩
    · intro i c m other _ h; simp at h
    · intro c _; simp [seconds]
    · intro c _; simp [firstPlaces]
  | cons p t ih =>
    intro st hall
    obtain ⟨c, other, hp, hj⟩ := hall p List.mem_cons_self
    obtain ⟨p1, m⟩ := p
    obtain rfl : p1 = c.m := (Prod.mk.inj hp).1
    simp only at hj
    obtain ⟨f, hf, hstep⟩ := ghostStep_spec hm ho st hj
    obtain ⟨st', fs, hrun, hd⟩ := ih { st with
        ghostFaces := st.ghostFaces ++ [f]
        adjCells := push st.adjCells (.loc c.at') (.ghost m)
        adjFaces := push st.adjFaces (.loc c.at') (.ghost st.ghostFaces.length) } fun q hq => hall q (List.mem_cons_of_mem _ hq)
    refine ⟨st', f :: fs, ?_, ⟨?_, ?_, ?_, hd.locals, ?_, ?_⟩⟩
    · unfold buildGhostFaces
      rw [List.foldlM_cons, hstep]
      exact hrun
    · rw [hd.faces]; simp
    · simp [hd.length]
    · intro i c' m' other' hj' hi
      cases i with
      | zero =>
        rw [List.getElem?_cons_zero, Option.some.injEq, Prod.mk.injEq] at hi
        obtain rfl := eq_of_id hm hj.left hj'.left hi.1
        obtain rfl := hi.2
        obtain rfl : other = other' := Option.some.inj (hj.right.symm.trans hj'.right)
        exact ⟨f, rfl, hf⟩
      | succ i =>
        rw [List.getElem?_cons_succ] at hi
        obtain ⟨g, hg, hg'⟩ := hd.each i c' m' other' hj' hi
        refine ⟨g, by simpa using hg, ?_⟩
        have e : st.localFaces.length + (st.ghostFaces ++ [f]).length + i =
            st.localFaces.length + st.ghostFaces.length + (i + 1) := by simp; omega
        simp only at hg'
        rw [e] at hg'
        exact hg'
    · intro e he
      rw [hd.cells e he]
      simp only
      rw [push_one hm _ hj.left he]
      simp only [seconds, List.flatMap_cons, List.map_append, List.append_assoc]
      congr 1
      split_ifs <;> simp
    · intro e he
      rw [hd.adj e he]
      simp only
      rw [push_one hm _ hj.left he]
      simp only [firstPlaces, List.zipIdx_cons, List.flatMap_cons, List.map_append, List.append_assoc,
        List.length_append, List.length_singleton]
      congr 1
      split_ifs <;> simp

/-! ### The two lists a cell has of its neighbours -/

/-- The cells listed as adjacent are those across the faces listed as adjacent. -/
def Across (st : State) : Prop :=
  ∀ r, List.Forall₂ (fun ptr q => ∃ f, st.face ptr = some f ∧ f.other r = some q) (st.adjFaces r) (st.adjCells r)

theorem localStep_across {order : Order} {mesh : Mesh} {st st' : State} {p : Nat × Nat} (h : Across st)
    (hs : localStep order mesh st p = some st') : Across st' := by
  simp only [localStep, Option.bind_eq_bind, Option.bind_eq_some_iff, Option.some.injEq] at hs
  obtain ⟨hi, -, si, -, hn, -, sn, -, ⟨k, nodes⟩, -, rfl⟩ := hs
  intro r
  have hold : List.Forall₂ (fun ptr q => ∃ f, State.face { st with localFaces := st.localFaces ++ [⟨st.localFaces.length,
      hi.zone, k, nodes, Ref.loc hi, some (.loc { si with zone := hi.zone })⟩] } ptr = some f ∧ f.other r = some q)
      (st.adjFaces r) (st.adjCells r) := by
    refine (h r).imp ?_
    rintro ptr q ⟨f, hf, hq⟩
    refine ⟨f, ?_, hq⟩
    cases ptr with
    | loc i =>
      simp only [State.face] at hf ⊢
      rw [List.getElem?_append_left (List.getElem?_eq_some_iff.1 hf).1]; exact hf
    | ghost i => exact hf
  have hnew : ∀ f, State.face { st with localFaces := st.localFaces ++ [f] } (.loc st.localFaces.length) = some f := by
    intro f; simp [State.face]
  simp only [push]
  by_cases h1 : r = Ref.loc hi
  · by_cases h2 : r = Ref.loc { si with zone := hi.zone }
    · rw [if_pos h2, if_pos h1, if_pos h2, if_pos h1]
      refine List.rel_append (List.rel_append hold ?_) ?_
      · refine List.Forall₂.cons ⟨_, hnew _, ?_⟩ List.Forall₂.nil
        simp [Face.other, h1]
      · refine List.Forall₂.cons ⟨_, hnew _, ?_⟩ List.Forall₂.nil
        rw [Face.other, if_pos h1, ← h2, h1]
    · rw [if_neg h2, if_pos h1, if_neg h2, if_pos h1]
      refine List.rel_append hold ?_
      refine List.Forall₂.cons ⟨_, hnew _, ?_⟩ List.Forall₂.nil
      simp [Face.other, h1]
  · by_cases h2 : r = Ref.loc { si with zone := hi.zone }
    · rw [if_pos h2, if_neg h1, if_pos h2, if_neg h1]
      refine List.rel_append hold ?_
      refine List.Forall₂.cons ⟨_, hnew _, ?_⟩ List.Forall₂.nil
      rw [Face.other, if_neg h1]
    · rw [if_neg h2, if_neg h1, if_neg h2, if_neg h1]
      exact hold

theorem ghostStep_across {order : Order} {mesh : Mesh} {st st' : State} {p : Nat × Nat} (h : Across st)
    (hs : ghostStep order mesh st p = some st') : Across st' := by
  simp only [ghostStep, Option.bind_eq_bind, Option.bind_eq_some_iff, Option.some.injEq] at hs
  obtain ⟨hi, -, hn, -, sn, -, ⟨k, nodes⟩, -, rfl⟩ := hs
  intro r
  have hold : List.Forall₂ (fun ptr q => ∃ f, State.face { st with ghostFaces := st.ghostFaces ++
      [⟨st.localFaces.length + st.ghostFaces.length, hi.zone, k, nodes, Ref.loc hi, some (.ghost p.2)⟩] } ptr = some f ∧
      f.other r = some q) (st.adjFaces r) (st.adjCells r) := by
    refine (h r).imp ?_
    rintro ptr q ⟨f, hf, hq⟩
    refine ⟨f, ?_, hq⟩
    cases ptr with
    | ghost i =>
      simp only [State.face] at hf ⊢
      rw [List.getElem?_append_left (List.getElem?_eq_some_iff.1 hf).1]; exact hf
    | loc i => exact hf
  have hnew : ∀ f, State.face { st with ghostFaces := st.ghostFaces ++ [f] } (.ghost st.ghostFaces.length) = some f := by
    intro f; simp [State.face]
  simp only [push]
  by_cases h1 : r = Ref.loc hi
  · rw [if_pos h1, if_pos h1]
    refine List.rel_append hold ?_
    refine List.Forall₂.cons ⟨_, hnew _, ?_⟩ List.Forall₂.nil
    simp [Face.other, h1]
  · rw [if_neg h1, if_neg h1]
    exact hold

theorem foldlM_inv {α β : Type} (step : β → α → Option β) (P : β → Prop) (hstep : ∀ b a b', P b → step b a = some b' → P b')
    (l : List α) : ∀ b b', P b → l.foldlM step b = some b' → P b' := by
  induction l with
  | nil => intro b b' h hr; cases hr; exact h
  | cons a t ih =>
    intro b b' h hr
    rw [List.foldlM_cons, Option.bind_eq_bind, Option.bind_eq_some_iff] at hr
    obtain ⟨c, hc, hr⟩ := hr
    exact ih c b' (hstep b a c h hc) hr

/-! ### Boundary faces -/

theorem alter_after (k : Nat × Nat) (g : List Face → List Face) (F : List ((Nat × Nat) × List Face))
    (hF : ∀ e ∈ F, before e.1 k) : alter k g F = F ++ [(k, g [])] := by
  induction F with
  | nil => rfl
  | cons e t ih =>
    have he := hF e List.mem_cons_self
    have hne : e.1 ≠ k := by
      rintro rfl
      simp [before] at he
    have hnb : before k e.1 = false := by
      simp only [before, Bool.or_eq_true, decide_eq_true_eq, Bool.and_eq_true, beq_iff_eq] at he
      simp only [before, Bool.or_eq_false_iff, decide_eq_false_iff_not, Bool.and_eq_false_iff, beq_eq_false_iff_ne]
      omega
    rw [alter, if_neg hne, if_neg (by simp [hnb]), ih fun x hx => hF x (List.mem_cons_of_mem _ hx)]
    rfl

theorem alter_last (k : Nat × Nat) (g : List Face → List Face) (F : List ((Nat × Nat) × List Face)) (fs : List Face)
    (hF : ∀ e ∈ F, before e.1 k) : alter k g (F ++ [(k, fs)]) = F ++ [(k, g fs)] := by
  induction F with
  | nil => simp [alter]
  | cons e t ih =>
    have he := hF e List.mem_cons_self
    have hne : e.1 ≠ k := by
      rintro rfl
      simp [before] at he
    have hnb : before k e.1 = false := by
      simp only [before, Bool.or_eq_true, decide_eq_true_eq, Bool.and_eq_true, beq_iff_eq] at he
      simp only [before, Bool.or_eq_false_iff, decide_eq_false_iff_not, Bool.and_eq_false_iff, beq_eq_false_iff_ne]
      omega
    rw [List.cons_append, alter, if_neg hne, if_neg (by simp [hnb]), ih fun x hx => hF x (List.mem_cons_of_mem _ hx)]
    rfl

/-- `c` is the one cell of the zone that has all nodes of the face, and they make up one of its sides. -/
structure Holds (mesh : Mesh) (line : Line) (face : List Nat) (c : LocalCell) : Prop where
  mem : c ∈ mesh.cells
  zone : c.at'.zone = line.zone
  length : face.length = line.npe
  side : Side c.nodes face
  only : ∀ d ∈ mesh.cells, d.at'.zone = line.zone → (∀ x ∈ face, x ∈ d.nodes) → d = c

theorem boundaryFace_spec {mesh : Mesh} (hm : Sound mesh) {order : Order} (ho : Fair order) {line : Line} {face : List Nat}
    {c : LocalCell} (h : Holds mesh line face c) (b : Bound) :
    ∃ f, IsFace f b.next c face none ∧ boundaryFace order mesh line b face = some { b with
      faces := alter (line.zone, line.sect) (· ++ [f]) b.faces, next := b.next + 1 } := by
  obtain ⟨k, nodes, hs, h1, h2, h3⟩ := sortFace_spec (hm.nodes c h.mem) h.side
  have h0 : line.npe ≠ 0 := by
    have := side_length h.side
    have := h.length
    omega
  refine ⟨⟨b.next, line.zone, k, nodes, .loc c.at', none⟩, ⟨rfl, h.zone.symm, rfl, rfl, h1, h2, h3⟩, ?_⟩
  simp only [boundaryFace, holderOf_eq hm order ho line.zone line.npe face h.length h0 h.mem h.zone
    (side_mem h.side) h.only, Option.bind_eq_bind, Option.bind_some, index_eq hm h.mem, row_eq hm h.mem, hs]

/-- What is made of the faces of a line. -/
structure LineDone (mesh : Mesh) (line : Line) (faces : List (List Nat)) (start : Nat) (fs : List Face) : Prop where
  length : fs.length = faces.length
  each : ∀ (i : Nat) face c, faces[i]? = some face → Holds mesh line face c →
    ∃ f, fs[i]? = some f ∧ IsFace f (start + i) c face none

theorem line_faces {mesh : Mesh} (hm : Sound mesh) {order : Order} (ho : Fair order) (line : Line)
    (F : List ((Nat × Nat) × List Face)) (hF : ∀ e ∈ F, before e.1 (line.zone, line.sect)) (faces : List (List Nat)) :
    (∀ face ∈ faces, ∃ c, Holds mesh line face c) → ∀ (fs0 : List Face) (next : Nat) names,
    ∃ fs, LineDone mesh line faces next fs ∧
      faces.foldlM (boundaryFace order mesh line) ⟨F ++ [((line.zone, line.sect), fs0)], next, names⟩ =
        some ⟨F ++ [((line.zone, line.sect), fs0 ++ fs)], next + faces.length, names⟩ := by
  induction faces with
  | nil =>
    intro _ fs0 next names
    exact ⟨[], ⟨rfl, by simp⟩, by simp⟩
  | cons face t ih =>
    intro hall fs0 next names
    obtain ⟨c, hc⟩ := hall face List.mem_cons_self
    obtain ⟨f, hf, hstep⟩ := boundaryFace_spec hm ho hc ⟨F ++ [((line.zone, line.sect), fs0)], next, names⟩
    simp only at hf hstep
    rw [alter_last _ _ F fs0 hF] at hstep
    obtain ⟨fs, hd, hrun⟩ := ih (fun x hx => hall x (List.mem_cons_of_mem _ hx)) (fs0 ++ [f]) (next + 1) names
    refine ⟨f :: fs, ⟨by simp [hd.length], ?_⟩, ?_⟩
    · intro i face' c' hi hh
      cases i with
      | zero =>
        rw [List.getElem?_cons_zero, Option.some.injEq] at hi
        subst hi
        obtain rfl := hc.only c' hh.mem hh.zone (side_mem hh.side)
        exact ⟨f, rfl, hf⟩
      | succ i =>
        rw [List.getElem?_cons_succ] at hi
        obtain ⟨g, hg, hg'⟩ := hd.each i face' c' hi hh
        refine ⟨g, by simpa using hg, ?_⟩
        have e : next + 1 + i = next + (i + 1) := by omega
        rw [e] at hg'
        exact hg'
    · rw [List.foldlM_cons, hstep]
      simp only [Option.bind_eq_bind, Option.bind_some]
      rw [hrun]
      simp only [List.append_assoc, List.singleton_append, List.length_cons]
      congr 2
      omega

/-- What is made of all lines, of which the first face gets the number `start`. -/
inductive LinesDone (mesh : Mesh) : List Line → Nat → List ((Nat × Nat) × List Face) → Prop
  | nil (start : Nat) : LinesDone mesh [] start []
  | cons {line lines start fs rest} (h : LineDone mesh line line.faces start fs)
      (h' : LinesDone mesh lines (start + line.faces.length) rest) :
      LinesDone mesh (line :: lines) start (((line.zone, line.sect), fs) :: rest)

theorem lines_done {mesh : Mesh} (hm : Sound mesh) {order : Order} (ho : Fair order) (lines : List Line) :
    (lines.Pairwise fun a b => before (a.zone, a.sect) (b.zone, b.sect)) →
    (∀ line ∈ lines, ∀ face ∈ line.faces, ∃ c, Holds mesh line face c) →
    ∀ (F : List ((Nat × Nat) × List Face)) (next : Nat) names,
    (∀ e ∈ F, ∀ line ∈ lines, before e.1 (line.zone, line.sect)) →
    ∃ rest, LinesDone mesh lines next rest ∧ lines.foldlM (boundaryLine order mesh) ⟨F, next, names⟩ =
      some ⟨F ++ rest, next + (lines.map (·.faces.length)).sum,
        (lines.map fun l => (l.name, l.zone, l.sect)).reverse ++ names⟩ := by
  induction lines with
  | nil =>
    intro _ _ F next names _
    exact ⟨[], .nil _, by simp⟩
  | cons line t ih =>
    intro hpw hall F next names hF
    rw [List.pairwise_cons] at hpw
    have hF0 : ∀ e ∈ F, before e.1 (line.zone, line.sect) := fun e he => hF e he line List.mem_cons_self
    obtain ⟨fs, hd, hrun⟩ := line_faces hm ho line F hF0 line.faces (hall line List.mem_cons_self) [] next
      ((line.name, line.zone, line.sect) :: names)
    obtain ⟨rest, hr, hrun'⟩ := ih hpw.2 (fun l hl => hall l (List.mem_cons_of_mem _ hl))
      (F ++ [((line.zone, line.sect), fs)]) (next + line.faces.length) ((line.name, line.zone, line.sect) :: names) (by
        intro e he l hl
        rcases List.mem_append.1 he with he | he
        · exact hF e he l (List.mem_cons_of_mem _ hl)
        · obtain rfl := List.mem_singleton.1 he
          exact hpw.1 l hl)
    refine ⟨_, .cons hd hr, ?_⟩
    rw [List.foldlM_cons]
    have : boundaryLine order mesh ⟨F, next, names⟩ line = some ⟨F ++ [((line.zone, line.sect), fs)],
        next + line.faces.length, (line.name, line.zone, line.sect) :: names⟩ := by
      unfold boundaryLine
      simp only
      rw [alter_after _ _ F hF0]
      exact hrun
    rw [this]
    simp only [Option.bind_eq_bind, Option.bind_some]
    rw [hrun']
    simp [Nat.add_assoc]

end MiniCFD.Faces
