import Verif.Model.Faces
import Verif.Spec.Faces
import Verif.Props.SortNodes
import Mathlib.Data.List.Nodup
import Mathlib.Data.List.Perm.Basic
import Mathlib.Tactic.Common

/-!
# Lemmas about the faces of a part
-/

namespace MiniCFD.Faces

open MiniCFD.Shape
open MiniCFD.Spec.Faces
open MiniCFD.Spec.SortNodes (faceNodes Proper)

/-! ### Counting -/

theorem mem_bump (x y n : Nat) (t : List (Nat × Nat)) (ht : (t.map (·.1)).Nodup) :
    (y, n) ∈ bump x t ↔ (y ≠ x ∧ (y, n) ∈ t) ∨ (y = x ∧ ((∃ k, (y, k) ∈ t ∧ n = k + 1) ∨ (x ∉ t.map (·.1) ∧ n = 1))) := by
  induction t with
  | nil => simp [bump]
  | cons e t ih =>
    obtain ⟨z, k⟩ := e
    rw [List.map_cons, List.nodup_cons] at ht
    have ih := ih ht.2
    simp only [bump]
    by_cases hx : x = z
    · subst hx
      rw [if_pos rfl]
      by_cases hy : y = x
      · subst hy
        have hno : ∀ k, (y, k) ∉ t := fun k h => ht.1 (List.mem_map.2 ⟨_, h, rfl⟩)
        simp [hno]
      · simp [hy]
    · rw [if_neg hx]
      rw [List.mem_cons, ih]
      by_cases hy : y = x
      · subst hy
        simp [hx]
      · simp [hy]

theorem keys_bump (x : Nat) (t : List (Nat × Nat)) :
    (bump x t).map (·.1) = if x ∈ t.map (·.1) then t.map (·.1) else t.map (·.1) ++ [x] := by
  induction t with
  | nil => simp [bump]
  | cons e t ih =>
    obtain ⟨z, k⟩ := e
    simp only [bump]
    by_cases hx : x = z
    · simp [hx]
    · rw [if_neg hx]
      simp only [List.map_cons, ih, List.mem_cons, hx, false_or]
      split_ifs <;> simp

theorem nodup_bump (x : Nat) (t : List (Nat × Nat)) (ht : (t.map (·.1)).Nodup) : ((bump x t).map (·.1)).Nodup := by
  rw [keys_bump]
  split_ifs with h
  · exact ht
  · exact List.nodup_append.2 ⟨ht, List.nodup_singleton _, by
      intro a ha b hb
      obtain rfl := List.mem_singleton.1 hb
      exact fun e => h (e ▸ ha)⟩

/-- The counters count. -/
theorem foldl_bump (l : List Nat) : ∀ t : List (Nat × Nat), (t.map (·.1)).Nodup → (∀ y, (y, 0) ∉ t) →
    ((l.foldl (fun t x => bump x t) t).map (·.1)).Nodup ∧
      (∀ y, (y, 0) ∉ l.foldl (fun t x => bump x t) t) ∧
      ∀ y n, (y, n) ∈ l.foldl (fun t x => bump x t) t ↔
        (∃ k, (y, k) ∈ t ∧ n = k + l.count y) ∨ (y ∉ t.map (·.1) ∧ n = l.count y ∧ n ≠ 0) := by
  induction l with
  | nil =>
    intro t ht hz
    refine ⟨ht, hz, fun y n => ?_⟩
    simp only [List.foldl_nil, List.count_nil, Nat.add_zero]
    constructor
    · exact fun h => Or.inl ⟨n, h, rfl⟩
    · rintro (⟨k, h, rfl⟩ | ⟨_, h, h'⟩)
      · exact h
      · exact absurd h h'
  | cons x l ih =>
    intro t ht hz
    have hz' : ∀ y, (y, 0) ∉ bump x t := by
      intro y h
      rw [mem_bump x y 0 t ht] at h
      rcases h with ⟨_, h⟩ | ⟨_, ⟨k, _, h⟩ | ⟨_, h⟩⟩
      · exact hz y h
      · omega
      · omega
    obtain ⟨h1, h2, h3⟩ := ih (bump x t) (nodup_bump x t ht) hz'
    refine ⟨h1, h2, fun y n => ?_⟩
    rw [List.foldl_cons, h3, keys_bump]
    by_cases hy : y = x
    · subst hy
      have hm : ∀ k, (y, k) ∈ bump y t ↔ ((∃ j, (y, j) ∈ t ∧ k = j + 1) ∨ (y ∉ t.map (·.1) ∧ k = 1)) := by
        intro k; rw [mem_bump y y k t ht]; simp
      rw [List.count_cons_self]
      constructor
      · rintro (⟨k, hk, rfl⟩ | ⟨hk, rfl, hn⟩)
        · rcases (hm k).1 hk with ⟨j, hj, rfl⟩ | ⟨hj, rfl⟩
          · exact Or.inl ⟨j, hj, by omega⟩
          · exact Or.inr ⟨hj, by omega, by omega⟩
        · exfalso
          split_ifs at hk with h
          · exact hk h
          · exact hk (List.mem_append_right _ (List.mem_singleton_self _))
      · rintro (⟨k, hk, rfl⟩ | ⟨hk, rfl, _⟩)
        · exact Or.inl ⟨k + 1, (hm _).2 (Or.inl ⟨k, hk, rfl⟩), by omega⟩
        · exact Or.inl ⟨1, (hm _).2 (Or.inr ⟨hk, rfl⟩), by omega⟩
    · have hm : ∀ k, (y, k) ∈ bump x t ↔ (y, k) ∈ t := by
        intro k; rw [mem_bump x y k t ht]; simp [hy]
      rw [List.count_cons_of_ne (Ne.symm hy)]
      simp only [hm]
      have : (y ∉ if x ∈ t.map (·.1) then t.map (·.1) else t.map (·.1) ++ [x]) ↔ y ∉ t.map (·.1) := by
        split_ifs
        · rfl
        · rw [List.mem_append, List.mem_singleton]; simp [hy]
      rw [this]

theorem nodup_tally (l : List Nat) : ((tally l).map (·.1)).Nodup :=
  (foldl_bump l [] List.nodup_nil (by simp)).1

theorem mem_tally (l : List Nat) (y n : Nat) : (y, n) ∈ tally l ↔ n = l.count y ∧ n ≠ 0 := by
  unfold tally
  rw [(foldl_bump l [] List.nodup_nil (by simp)).2.2 y n]
  simp

/-- An order of walking a hash map visits every entry once. -/
def Fair (order : Order) : Prop := ∀ t, (order t).Perm t

/-- The common nodes are found, in some order. -/
theorem commonNodes_perm (order : Order) (ho : Fair order) (a b : List Nat) (ha : a.Nodup) (hb : b.Nodup) :
    (commonNodes order a b).Perm (shared a b) := by
  have hp : ((order (tally (a ++ b))).map (·.1)).Nodup := (((ho _).map (·.1)).nodup_iff).2 (nodup_tally _)
  have hs : (((order (tally (a ++ b))).filter fun e => e.2 = 2).map (·.1)).Sublist ((order (tally (a ++ b))).map (·.1)) :=
    List.filter_sublist.map _
  refine (List.perm_ext_iff_of_nodup (hp.sublist hs) (ha.filter _)).2 fun x => ?_
  rw [List.mem_map, List.mem_filter]
  simp only [List.mem_filter, decide_eq_true_eq, (ho _).mem_iff]
  have ca := List.nodup_iff_count_le_one.1 ha x
  have cb := List.nodup_iff_count_le_one.1 hb x
  constructor
  · rintro ⟨⟨y, n⟩, ⟨h, hn⟩, rfl⟩
    rw [mem_tally, List.count_append] at h
    simp only at hn ca cb ⊢
    have h1 : 0 < a.count y := by omega
    have h2 : 0 < b.count y := by omega
    exact ⟨List.count_pos_iff.1 h1, List.count_pos_iff.1 h2⟩
  · rintro ⟨h1, h2⟩
    have h1 := List.count_pos_iff.2 h1
    have h2 := List.count_pos_iff.2 h2
    exact ⟨(x, 2), ⟨(mem_tally _ _ _).2 ⟨by rw [List.count_append]; omega, by omega⟩, rfl⟩, rfl⟩

/-! ### Sorting the nodes of a face -/

theorem shape_cases {n : Nat} {shape : Spec.SortNodes.Shape} (h : shapeWith n = some shape) :
    ∃ k, Tables.buildGaussForCell n = some k ∧ SortNodes.shapeOf k = some shape ∧ k.count = n ∧
      ∀ l ∈ shape.planes, (faceNodes (shape.positions n) l).length = 3 ∨ (faceNodes (shape.positions n) l).length = 4 := by
  unfold shapeWith at h
  split at h
  · cases h; exact ⟨.tetrahedron4, rfl, rfl, rfl, by decide⟩
  · cases h; exact ⟨.pyramid5, rfl, rfl, rfl, by decide⟩
  · cases h; exact ⟨.wedge6, rfl, rfl, rfl, by decide⟩
  · cases h; exact ⟨.hexahedron8, rfl, rfl, rfl, by decide⟩
  · cases h

theorem side_length {cell face : List Nat} (h : Side cell face) : face.length = 3 ∨ face.length = 4 := by
  obtain ⟨shape, hs, l, hl, hp⟩ := h
  obtain ⟨k, -, -, -, h⟩ := shape_cases hs
  have := h l hl
  rw [hp.length_eq, List.length_map]
  exact this

theorem side_mem {cell face : List Nat} (h : Side cell face) : ∀ x ∈ face, x ∈ cell := by
  obtain ⟨shape, hs, l, hl, hp⟩ := h
  obtain ⟨k, -, hk, hc, -⟩ := shape_cases hs
  intro x hx
  obtain ⟨i, hi, rfl⟩ := List.mem_map.1 (hp.mem_iff.1 hx)
  have hi := List.mem_range.1 (List.mem_filter.1 hi).1
  have : i < cell.length := by
    refine lt_of_lt_of_le hi ?_
    unfold Spec.SortNodes.Shape.positions
    rw [List.length_take]; exact Nat.min_le_left _ _
  rw [List.getD_eq_getElem?_getD, List.getElem?_eq_getElem this, Option.getD_some]
  exact List.getElem_mem this

theorem side_perm {cell face face' : List Nat} (h : Side cell face) (hp : face'.Perm face) : Side cell face' := by
  obtain ⟨shape, hs, l, hl, h⟩ := h
  exact ⟨shape, hs, l, hl, hp.trans h⟩

/-- Sides of cells are sorted outward and get the class for their number of nodes. -/
theorem sortFace_spec {cell face : List Nat} (hc : cell.Nodup) (h : Side cell face) :
    ∃ k nodes, sortFace cell face = some (k, nodes) ∧ nodes.Perm face ∧ Outward cell nodes ∧
      (k = .triangle3 ∧ nodes.length = 3 ∨ k = .quadrangle4 ∧ nodes.length = 4) := by
  have hlen := side_length h
  obtain ⟨shape, hs, l, hl, hp⟩ := h
  obtain ⟨k, hk, hk', hcount, -⟩ := shape_cases hs
  rw [← hcount] at hp
  obtain ⟨r, hr, hr1, hr2, hr3⟩ := SortNodes.sort_proper k shape hk' cell hcount.symm hc l hl face hp
  rw [hcount] at hr2 hr3
  have hout : Outward cell (r.map (cell.getD · 0)) := ⟨shape, hs, r, rfl, ⟨l, hl, hr2⟩, hr3⟩
  rcases hlen with h3 | h4
  · refine ⟨.triangle3, _, ?_, hr1, hout, Or.inl ⟨rfl, hr1.length_eq.trans h3⟩⟩
    simp [sortFace, hk, hr, h3, Tables.buildGaussForFace]
  · refine ⟨.quadrangle4, _, ?_, hr1, hout, Or.inr ⟨rfl, hr1.length_eq.trans h4⟩⟩
    simp [sortFace, hk, hr, h4, Tables.buildGaussForFace]

/-- The order in which the nodes come does not matter. -/
theorem sortFace_perm {cell face face' : List Nat} (hc : cell.Nodup) (h : Side cell face) (hp : face'.Perm face) :
    sortFace cell face' = sortFace cell face := by
  obtain ⟨shape, hs, l, hl, hf⟩ := h
  obtain ⟨k, hk, hk', hcount, -⟩ := shape_cases hs
  rw [← hcount] at hf
  unfold sortFace
  rw [hk, hp.length_eq]
  simp only [Option.bind_eq_bind, Option.bind_some]
  rw [SortNodes.sort_order_irrelevant k shape hk' cell hcount.symm hc l hl face face' hf hp]

/-! ### Looking up cells -/

/-- Distinct cells have distinct numbers and places, and no cell has a node twice. -/
structure Sound (mesh : Mesh) : Prop where
  ids : (mesh.cells.map (·.m)).Nodup
  sites : (mesh.cells.map (·.at')).Nodup
  nodes : ∀ c ∈ mesh.cells, c.nodes.Nodup

theorem find_unique {α β : Type} [DecidableEq β] (f : α → β) (l : List α) (h : (l.map f).Nodup) (a : α) (ha : a ∈ l) :
    l.find? (fun x => decide (f x = f a)) = some a := by
  induction l with
  | nil => exact absurd ha List.not_mem_nil
  | cons b t ih =>
    rw [List.map_cons, List.nodup_cons] at h
    rcases List.mem_cons.1 ha with rfl | ha
    · simp
    · have : f b ≠ f a := fun e => h.1 (e ▸ List.mem_map_of_mem (f := f) ha)
      rw [List.find?_cons_of_neg (by simpa using this)]
      exact ih h.2 ha

theorem index_eq {mesh : Mesh} (hm : Sound mesh) {c : LocalCell} (hc : c ∈ mesh.cells) :
    mesh.index c.m = some c.at' := by
  unfold Mesh.index
  rw [find_unique (·.m) mesh.cells hm.ids c hc]; rfl

theorem row_eq {mesh : Mesh} (hm : Sound mesh) {c : LocalCell} (hc : c ∈ mesh.cells) :
    mesh.row c.at' = some c.nodes := by
  unfold Mesh.row
  rw [find_unique (·.at') mesh.cells hm.sites c hc]; rfl

theorem eq_of_id {mesh : Mesh} (hm : Sound mesh) {c d : LocalCell} (hc : c ∈ mesh.cells) (hd : d ∈ mesh.cells)
    (h : c.m = d.m) : c = d := List.inj_on_of_nodup_map hm.ids hc hd h

theorem eq_of_site {mesh : Mesh} (hm : Sound mesh) {c d : LocalCell} (hc : c ∈ mesh.cells) (hd : d ∈ mesh.cells)
    (h : c.at' = d.at') : c = d := List.inj_on_of_nodup_map hm.sites hc hd h

theorem site_iff {mesh : Mesh} (hm : Sound mesh) {c d : LocalCell} (hc : c ∈ mesh.cells) (hd : d ∈ mesh.cells) :
    Ref.loc c.at' = Ref.loc d.at' ↔ d.m = c.m := by
  constructor
  · intro h; rw [eq_of_site hm hc hd (Ref.loc.inj h)]
  · intro h; rw [eq_of_id hm hd hc h]

/-! ### The holder of a boundary face -/

theorem count_users {mesh : Mesh} (hm : Sound mesh) (zone node : Nat) {c : LocalCell} (hc : c ∈ mesh.cells) :
    (users mesh zone node).count c.m = if c.at'.zone = zone ∧ node ∈ c.nodes then 1 else 0 := by
  unfold users
  have hgen : ∀ cells : List LocalCell, (cells.map (·.m)).Nodup → (∀ d ∈ cells, d.nodes.Nodup) →
      (cells.flatMap fun d => if d.at'.zone = zone then (d.nodes.filter (· = node)).map fun _ => d.m else []).count c.m =
        if ∃ d ∈ cells, d.m = c.m ∧ d.at'.zone = zone ∧ node ∈ d.nodes then 1 else 0 := by
    intro cells
    induction cells with
    | nil => simp
    | cons d t ih =>
      intro hn hnod
      rw [List.map_cons, List.nodup_cons] at hn
      rw [List.flatMap_cons, List.count_append, ih hn.2 fun x hx => hnod x (List.mem_cons_of_mem _ hx)]
      have hd := hnod d List.mem_cons_self
      have h1 : (if d.at'.zone = zone then (d.nodes.filter (· = node)).map fun _ => d.m else []).count c.m =
          if d.m = c.m ∧ d.at'.zone = zone ∧ node ∈ d.nodes then 1 else 0 := by
        by_cases hz : d.at'.zone = zone
        · rw [if_pos hz]
          by_cases he : d.m = c.m
          · rw [← he]
            have : ((d.nodes.filter (· = node)).map fun _ => d.m).count d.m = (d.nodes.filter (· = node)).length := by
              rw [List.count_eq_length.2, List.length_map]
              intro b hb
              obtain ⟨_, _, rfl⟩ := List.mem_map.1 hb
              rfl
            rw [this]
            have h2 : (d.nodes.filter (· = node)).length = d.nodes.count node := by
              rw [List.count_eq_length_filter]
              simp [beq_eq_decide]
            rw [h2]
            by_cases hmem : node ∈ d.nodes
            · rw [List.count_eq_one_of_mem hd hmem]; simp [hz, hmem]
            · rw [List.count_eq_zero.2 hmem]; simp [hmem]
          · rw [if_neg (by tauto), List.count_eq_zero]
            intro h
            obtain ⟨_, _, h⟩ := List.mem_map.1 h
            exact he h
        · rw [if_neg hz, if_neg (by tauto)]; simp
      rw [h1]
      by_cases hP : d.m = c.m ∧ d.at'.zone = zone ∧ node ∈ d.nodes
      · have hnot : ¬∃ x ∈ t, x.m = c.m ∧ x.at'.zone = zone ∧ node ∈ x.nodes := by
          rintro ⟨x, hx, hxm, -⟩
          exact hn.1 (List.mem_map.2 ⟨x, hx, hxm.trans hP.1.symm⟩)
        rw [if_pos hP, if_neg hnot, if_pos ⟨d, List.mem_cons_self, hP⟩]
      · rw [if_neg hP, Nat.zero_add]
        have : (∃ x ∈ d :: t, x.m = c.m ∧ x.at'.zone = zone ∧ node ∈ x.nodes) ↔
            (∃ x ∈ t, x.m = c.m ∧ x.at'.zone = zone ∧ node ∈ x.nodes) := by
          constructor
          · rintro ⟨x, hx, hr⟩
            rcases List.mem_cons.1 hx with rfl | hx
            · exact absurd hr hP
            · exact ⟨x, hx, hr⟩
          · rintro ⟨x, hx, hr⟩; exact ⟨x, List.mem_cons_of_mem _ hx, hr⟩
        by_cases hQ : ∃ x ∈ t, x.m = c.m ∧ x.at'.zone = zone ∧ node ∈ x.nodes
        · rw [if_pos hQ, if_pos (this.2 hQ)]
        · rw [if_neg hQ, if_neg (fun h => hQ (this.1 h))]
  rw [hgen mesh.cells hm.ids hm.nodes]
  have : (∃ d ∈ mesh.cells, d.m = c.m ∧ d.at'.zone = zone ∧ node ∈ d.nodes) ↔ (c.at'.zone = zone ∧ node ∈ c.nodes) := by
    refine ⟨?_, fun h => ⟨c, hc, rfl, h⟩⟩
    rintro ⟨d, hd, he, h⟩
    rw [← eq_of_id hm hd hc he]; exact h
  by_cases hQ : c.at'.zone = zone ∧ node ∈ c.nodes
  · rw [if_pos hQ, if_pos (this.2 hQ)]
  · rw [if_neg hQ, if_neg (fun h => hQ (this.1 h))]

theorem users_mem {mesh : Mesh} {zone node m : Nat} (h : m ∈ users mesh zone node) :
    ∃ c ∈ mesh.cells, c.m = m ∧ c.at'.zone = zone ∧ node ∈ c.nodes := by
  obtain ⟨c, hc, h⟩ := List.mem_flatMap.1 h
  split_ifs at h with hz
  · obtain ⟨x, hx, rfl⟩ := List.mem_map.1 h
    obtain ⟨h1, h2⟩ := List.mem_filter.1 hx
    exact ⟨c, hc, rfl, hz, by simpa using (of_decide_eq_true h2) ▸ h1⟩
  · exact absurd h List.not_mem_nil

theorem count_face {mesh : Mesh} (hm : Sound mesh) (zone : Nat) (face : List Nat) {c : LocalCell} (hc : c ∈ mesh.cells) :
    (face.flatMap (users mesh zone)).count c.m =
      if c.at'.zone = zone then (face.filter (· ∈ c.nodes)).length else 0 := by
  induction face with
  | nil => simp
  | cons x t ih =>
    rw [List.flatMap_cons, List.count_append, ih, count_users hm zone x hc]
    by_cases hz : c.at'.zone = zone
    · by_cases hx : x ∈ c.nodes
      · simp [hz, hx, Nat.add_comm]
      · simp [hz, hx]
    · simp [hz]

/-- The holder found is the one cell that has all nodes of the face. -/
theorem holderOf_eq {mesh : Mesh} (hm : Sound mesh) (order : Order) (ho : Fair order) (zone npe : Nat) (face : List Nat)
    (hn : face.length = npe) (h0 : npe ≠ 0) {c : LocalCell} (hc : c ∈ mesh.cells) (hz : c.at'.zone = zone)
    (hface : ∀ x ∈ face, x ∈ c.nodes)
    (huniq : ∀ d ∈ mesh.cells, d.at'.zone = zone → (∀ x ∈ face, x ∈ d.nodes) → d = c) :
    holderOf order mesh zone npe face = some c.m := by
  unfold holderOf
  have hin : (c.m, npe) ∈ tally (face.flatMap (users mesh zone)) := by
    rw [mem_tally, count_face hm zone face hc, if_pos hz, List.filter_eq_self.2 (by simpa using hface)]
    exact ⟨hn.symm, h0⟩
  cases hf : (order (tally (face.flatMap (users mesh zone)))).find? fun e => decide (e.2 = npe) with
  | none =>
    have := List.find?_eq_none.1 hf _ (((ho _).mem_iff).2 hin)
    simp at this
  | some e =>
    obtain ⟨m, n⟩ := e
    have hn' : n = npe := by simpa using List.find?_some hf
    subst hn'
    have he := ((ho _).mem_iff).1 (List.mem_of_find?_eq_some hf)
    rw [mem_tally] at he
    have hpos : m ∈ face.flatMap (users mesh zone) := List.count_pos_iff.1 (by omega)
    obtain ⟨x, hx, hmx⟩ := List.mem_flatMap.1 hpos
    obtain ⟨d, hd, rfl, hdz, -⟩ := users_mem hmx
    have hcnt := he.1
    rw [count_face hm zone face hd, if_pos hdz] at hcnt
    have : face.filter (· ∈ d.nodes) = face :=
      List.filter_sublist.eq_of_length (by omega)
    have hall : ∀ x ∈ face, x ∈ d.nodes := by
      have := List.filter_eq_self.1 this
      simpa using this
    simp [huniq d hd hdz hall]

/-- No cell with all nodes: no holder. -/
theorem holderOf_none {mesh : Mesh} (hm : Sound mesh) (order : Order) (ho : Fair order) (zone npe : Nat) (face : List Nat)
    (hn : face.length = npe) (h0 : npe ≠ 0)
    (hno : ∀ d ∈ mesh.cells, d.at'.zone = zone → ¬∀ x ∈ face, x ∈ d.nodes) :
    holderOf order mesh zone npe face = none := by
  unfold holderOf
  rw [Option.map_eq_none_iff, List.find?_eq_none]
  rintro ⟨m, n⟩ he
  rw [(ho _).mem_iff, mem_tally] at he
  intro hn'
  have hn' : n = npe := by simpa using hn'
  subst hn'
  have hpos : m ∈ face.flatMap (users mesh zone) := List.count_pos_iff.1 (by omega)
  obtain ⟨x, hx, hmx⟩ := List.mem_flatMap.1 hpos
  obtain ⟨d, hd, rfl, hdz, -⟩ := users_mem hmx
  have hcnt := he.1
  rw [count_face hm zone face hd, if_pos hdz] at hcnt
  have : face.filter (· ∈ d.nodes) = face := List.filter_sublist.eq_of_length (by omega)
  refine hno d hd hdz ?_
  have := List.filter_eq_self.1 this
  simpa using this

end MiniCFD.Faces
