import Verif.Spec.FaceParts
import Verif.Lemmas.Faces
import Verif.Lemmas.Checkpoint

/-! Lemmas for C77. -/

namespace MiniCFD.FaceParts

open MiniCFD.Spec.FaceParts MiniCFD.Faces

/-- The cells as the cells of one part in one zone. -/
def mesh (cs : List (Nat × List Nat)) : Mesh := ⟨cs.map fun c => ⟨c.1, ⟨0, 0, c.1⟩, c.2⟩, fun _ => none⟩

theorem mesh_sound {g : Grid} {n m : Nat} (h : Good g n m) : Sound (mesh (cells g)) where
  ids := by
    simp only [mesh, List.map_map]
    exact h.ids
  sites := by
    have e : (mesh (cells g)).cells.map (·.at') = ((cells g).map (·.1)).map fun i => (⟨0, 0, i⟩ : Index) := by
      simp only [mesh, List.map_map]
      rfl
    rw [e]
    exact h.ids.map fun a b hab => by cases hab; rfl
  nodes := by
    intro c hc
    obtain ⟨d, hd, rfl⟩ := List.mem_map.1 hc
    exact h.distinct d hd

/-- What the vector of users holds once the cells `cs` are done. -/
def Holds (n : Nat) (cs : List (Nat × List Nat)) (us : List (List Nat)) : Prop :=
  us.length = n ∧ ∀ k, k < n → us[k]? = some (users (mesh cs) 0 k)

theorem users_append (a b : List (Nat × List Nat)) (k : Nat) :
    users (mesh (a ++ b)) 0 k = users (mesh a) 0 k ++ users (mesh b) 0 k := by
  simp [users, mesh]

theorem users_single (m k : Nat) (l : List Nat) :
    users (mesh [(m, l)]) 0 k = (l.filter (· = k)).map fun _ => m := by
  simp [users, mesh]

theorem addCell_spec {n : Nat} {z : Zone} {cs : List (Nat × List Nat)} {us : List (List Nat)} {e : Nat × List Nat}
    (h : Holds n cs us) (hn : ∀ i ∈ e.2, ∃ k, z.nodeMap i = some k ∧ k < n) :
    ∃ us', addCell z us e = some us' ∧ Holds n (cs ++ [(e.1, renamed z e.2)]) us' := by
  obtain ⟨us', h1, h2, h3⟩ := Checkpoint.fold_prefix (fun pre (us' : List (List Nat)) => us'.length = n ∧
      ∀ k, k < n → us'[k]? = some (users (mesh cs) 0 k ++ users (mesh [(e.1, renamed z pre)]) 0 k))
    (fun users i => do
      let n ← z.nodeMap i
      addUser e.1 users n) e.2 us ⟨h.1, fun k hk => by
        rw [h.2 k hk, users_single]; simp [renamed]⟩ (by
    rintro pre i post s eq ⟨g1, g2⟩
    obtain ⟨k, hk, hkn⟩ := hn i (by simp [eq])
    refine ⟨s.modify k (· ++ [e.1]), ?_, by simpa using g1, fun k' hk' => ?_⟩
    · simp only [hk, Option.bind_eq_bind, Option.bind_some, addUser, g1, hkn, if_true]
    · rw [List.getElem?_modify, g2 k' hk', users_single, users_single]
      simp only [renamed, List.map_append, List.map_cons, List.map_nil, hk, Option.getD_some, List.filter_append,
        Option.map_some]
      by_cases hkk : k = k'
      · subst hkk; simp
      · simp [hkk])
  refine ⟨us', h1, h2, fun k hk => ?_⟩
  rw [h3 k hk, users_append]

theorem addSect_spec {n dim : Nat} {z : Zone} {cs : List (Nat × List Nat)} {us : List (List Nat)} {s : Sect}
    (h : Holds n cs us) (hn : s.dim = dim → ∀ e ∈ s.elems, ∀ i ∈ e.2, ∃ k, z.nodeMap i = some k ∧ k < n) :
    ∃ us', addSect dim z us s = some us' ∧
      Holds n (cs ++ if s.dim = dim then s.elems.map fun e => (e.1, renamed z e.2) else []) us' := by
  unfold addSect
  by_cases hd : s.dim = dim
  · rw [if_pos hd, if_pos hd]
    exact Checkpoint.fold_prefix (fun pre us' => Holds n (cs ++ pre.map fun e => (e.1, renamed z e.2)) us')
      (addCell z) s.elems us (by simpa using h) (by
        intro pre e post us1 eq g
        obtain ⟨us2, l1, l2⟩ := addCell_spec (e := e) g (hn hd e (by simp [eq]))
        exact ⟨us2, l1, by simpa using l2⟩)
  · rw [if_neg hd, if_neg hd]
    exact ⟨us, rfl, by simpa using h⟩

theorem buildUsers_spec {g : Grid} {n m : Nat} (h : Good g n m) :
    ∃ us, buildUsers g n = some us ∧ Holds n (cells g) us := by
  unfold buildUsers cells
  refine Checkpoint.fold_prefix (fun pre us => Holds n (pre.flatMap fun z => z.sects.flatMap fun s =>
      if s.dim = g.dim then s.elems.map fun e => (e.1, renamed z e.2) else []) us)
    (fun users z => z.sects.foldlM (addSect g.dim z) users) g.zones (List.replicate n []) ?_ ?_
  · refine ⟨by simp, fun k hk => ?_⟩
    rw [List.getElem?_replicate_of_lt hk]
    rfl
  · intro pre z post us eq hu
    have hz : z ∈ g.zones := by simp [eq]
    obtain ⟨us', l1, l2⟩ := Checkpoint.fold_prefix (fun pre' us => Holds n ((pre.flatMap fun z => z.sects.flatMap fun s =>
        if s.dim = g.dim then s.elems.map fun e => (e.1, renamed z e.2) else []) ++ pre'.flatMap fun s =>
        if s.dim = g.dim then s.elems.map fun e => (e.1, renamed z e.2) else []) us)
      (addSect g.dim z) z.sects us (by simpa using hu) (by
        intro pre' s post' us1 eq' g1
        obtain ⟨us2, m1, m2⟩ := addSect_spec (s := s) (z := z) g1 fun hd e he =>
          h.nodes z hz s (by simp [eq']) (Or.inl hd) e he
        exact ⟨us2, m1, by simpa using m2⟩)
    exact ⟨us', l1, by simpa using l2⟩

theorem faceUsers_spec {n : Nat} {z : Zone} {cs : List (Nat × List Nat)} {us : List (List Nat)} {face : List Nat}
    (h : Holds n cs us) (hn : ∀ i ∈ face, ∃ k, z.nodeMap i = some k ∧ k < n) :
    faceUsers z us face = some ((renamed z face).flatMap (users (mesh cs) 0)) := by
  obtain ⟨l, h1, h2⟩ := Checkpoint.fold_prefix (fun pre l => l = (renamed z pre).flatMap (users (mesh cs) 0))
    (fun l i => do
      let n ← z.nodeMap i
      let u ← us[n]?
      some (l ++ u)) face [] rfl (by
    intro pre i post l eq hl
    obtain ⟨k, hk, hkn⟩ := hn i (by simp [eq])
    refine ⟨l ++ users (mesh cs) 0 k, ?_, ?_⟩
    · simp only [hk, Option.bind_eq_bind, Option.bind_some, h.2 k hkn]
    · rw [hl]; simp [renamed, hk])
  unfold faceUsers
  rw [h1, h2]

/-- The loop over the counts. -/
theorem visit_all {debug : Bool} {parts : List Nat} {npe : Nat} (l : List (Nat × Nat)) (hl : ∀ e ∈ l, e.2 ≤ npe)
    (hp : ∀ e ∈ l, e.1 < parts.length) (s : Nat × Nat) :
    l.foldlM (visit debug parts npe) s =
      some ((l.filter (·.2 = npe)).foldl (fun s e => ((parts[e.1]?).getD 0, s.2 + 1)) s) := by
  induction l generalizing s with
  | nil => rfl
  | cons e l ih =>
    have he := hl e List.mem_cons_self
    have hq := hp e List.mem_cons_self
    rw [List.foldlM_cons]
    by_cases hn : e.2 = npe
    · have : visit debug parts npe s e = some ((parts[e.1]?).getD 0, s.2 + 1) := by
        unfold visit
        rw [if_neg (by simp; omega), if_pos hn, List.getElem?_eq_getElem hq]
        rfl
      rw [this, Option.bind_eq_bind, Option.bind_some, ih (fun e' h' => hl e' (List.mem_cons_of_mem _ h'))
        (fun e' h' => hp e' (List.mem_cons_of_mem _ h')), List.filter_cons_of_pos (by simpa using hn), List.foldl_cons]
    · have : visit debug parts npe s e = some s := by
        unfold visit
        rw [if_neg (by simp; omega), if_neg hn]
      rw [this, Option.bind_eq_bind, Option.bind_some, ih (fun e' h' => hl e' (List.mem_cons_of_mem _ h'))
        (fun e' h' => hp e' (List.mem_cons_of_mem _ h')), List.filter_cons_of_neg (by simpa using hn)]

theorem visit_count (l : List (Nat × Nat)) (f : Nat → Nat) (s : Nat × Nat) :
    (l.foldl (fun s e => (f e.1, s.2 + 1)) s).2 = s.2 + l.length := by
  induction l generalizing s with
  | nil => rfl
  | cons e l ih => rw [List.foldl_cons, ih, List.length_cons]; dsimp only; omega

/-- The counts of a face: at most `npe`, and `npe` for the cells which have all its nodes. -/
theorem counts {g : Grid} {n m : Nat} (h : Good g n m) {order : Order} (ho : Fair order) {face : List Nat}
    (h0 : face ≠ []) :
    (∀ e ∈ order (tally (face.flatMap (users (mesh (cells g)) 0))), e.2 ≤ face.length ∧ e.1 < m) ∧
    (∀ c, (c, face.length) ∈ order (tally (face.flatMap (users (mesh (cells g)) 0))) ↔ Has g face c) ∧
    (order (tally (face.flatMap (users (mesh (cells g)) 0)))).Nodup := by
  have hs := mesh_sound h
  have hlen : face.length ≠ 0 := fun h => h0 (List.eq_nil_of_length_eq_zero h)
  have key : ∀ c k, (c, k) ∈ order (tally (face.flatMap (users (mesh (cells g)) 0))) ↔
      ∃ nodes, (c, nodes) ∈ cells g ∧ k = (face.filter (· ∈ nodes)).length ∧ k ≠ 0 := by
    intro c k
    rw [(ho _).mem_iff, mem_tally]
    constructor
    · rintro ⟨hk, hk0⟩
      have hpos : c ∈ face.flatMap (users (mesh (cells g)) 0) := List.count_pos_iff.1 (by omega)
      obtain ⟨x, hx, hmx⟩ := List.mem_flatMap.1 hpos
      obtain ⟨d, hd, rfl, -⟩ := users_mem hmx
      have hc := count_face hs 0 face hd
      obtain ⟨e, he, rfl⟩ := List.mem_map.1 hd
      rw [if_pos rfl] at hc
      exact ⟨e.2, he, hk.trans hc, hk0⟩
    · rintro ⟨nodes, hn, hk, hk0⟩
      have hd : (⟨c, ⟨0, 0, c⟩, nodes⟩ : LocalCell) ∈ (mesh (cells g)).cells := List.mem_map.2 ⟨(c, nodes), hn, rfl⟩
      have hc := count_face hs 0 face hd
      rw [if_pos rfl] at hc
      exact ⟨hk.trans hc.symm, hk0⟩
  refine ⟨fun e he => ?_, fun c => ?_, ?_⟩
  · obtain ⟨nodes, hn, hk, -⟩ := (key e.1 e.2).1 he
    exact ⟨by rw [hk]; exact List.length_filter_le _ _, h.range _ hn⟩
  · rw [key]
    constructor
    · rintro ⟨nodes, hn, hk, -⟩
      refine ⟨nodes, hn, ?_⟩
      have : face.filter (· ∈ nodes) = face := List.filter_sublist.eq_of_length hk.symm
      simpa using List.filter_eq_self.1 this
    · rintro ⟨nodes, hn, hall⟩
      exact ⟨nodes, hn, by rw [List.filter_eq_self.2 (by simpa using hall)], hlen⟩
  · exact (ho _).nodup_iff.2 (List.Nodup.of_map _ (nodup_tally _))

end MiniCFD.FaceParts
