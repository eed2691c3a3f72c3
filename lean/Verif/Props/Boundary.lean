import Verif.Lemmas.Boundary
import Verif.Props.Sections

/-
C148. Boundary conditions follow their sections when sections are renumbered.
-/
namespace MiniCFD.Boundary
open MiniCFD.Sections MiniCFD.Spec.Sections MiniCFD.Spec.Boundary

/-! ## Looking up by name -/

/-- C148. `GetSection(name)` gives the first section whose name ends in `name`. -/
theorem lookup_first (name : List Nat) (secs : List Sect) (s : Sect) :
    getSection name secs = some s ↔
      ∃ a b, secs = a ++ s :: b ∧ name <:+ s.name ∧ ∀ t ∈ a, ¬ name <:+ t.name :=
  getSection_some name secs s

/-- C148. It throws exactly when no name ends in `name`. -/
theorem lookup_fails (name : List Nat) (secs : List Sect) :
    getSection name secs = none ↔ ∀ t ∈ secs, ¬ name <:+ t.name :=
  getSection_none name secs

/-- C148. When names of sections are no ends of each other, every section is found under its own name. -/
theorem lookup_own (secs : List Sect) (s : Sect) (hs : s ∈ secs)
    (hd : ∀ t ∈ secs, s.name <:+ t.name → t = s) : getSection s.name secs = some s := by
  cases h : getSection s.name secs with
  | none => exact absurd List.suffix_rfl ((lookup_fails _ _).1 h s hs)
  | some t =>
    obtain ⟨a, b, h1, h2, _⟩ := (lookup_first _ _ _).1 h
    rw [hd t (by simp [h1]) h2]

/-! ## Ranges determine cells -/

theorem at_unique {E : Elem} (hE : PosNpe E) {secs : List Sect} (hd : Spec.Boundary.Disjoint secs)
    {n : Nat} {c d : Cell} (hc : At E secs n c) (hd' : At E secs n d) : c = d := by
  obtain ⟨s, hs, cs, h1, h2, h3⟩ := hc
  obtain ⟨t, ht, ds, k1, k2, k3⟩ := hd'
  have hl := (List.getElem?_eq_some_iff.1 h3).1
  have kl := (List.getElem?_eq_some_iff.1 k3).1
  have e1 := h1.count
  have e2 := k1.count
  obtain rfl : s = t := hd s hs t ht n h2 (by omega) k2 (by omega)
  obtain rfl := holds_unique hE h1 k1
  exact Option.some.inj (h3.symm.trans k3)

/-- C148. Where sections do not overlap, a range stands for one list of cells. -/
theorem covers_unique (E : Elem) (hE : PosNpe E) (secs : List Sect)
    (hd : Spec.Boundary.Disjoint secs) (lo hi : Nat) (a b : List Cell)
    (ha : Covers E secs lo hi a) (hb : Covers E secs lo hi b) : a = b := by
  have hl : a.length = b.length := by
    have h1 := ha.1
    have h2 := hb.1
    omega
  refine List.ext_getElem hl ?_
  intro i h1 h2
  exact at_unique hE hd (ha.2 i _ (List.getElem?_eq_getElem h1))
    (hb.2 i _ (List.getElem?_eq_getElem h2))

theorem tiled_apart : ∀ (l : List Sect) (i next : Nat), Tiled l i next → Spec.Boundary.Disjoint l := by
  intro l
  induction l with
  | nil => intro i next _ s hs; simp at hs
  | cons a l ih =>
    intro i next h s hs t ht n h1 h2 h3 h4
    obtain ⟨_, k2, k3, k4⟩ := h
    have hi := ih _ _ k4
    have hb := tiled_disjoint _ _ _ k4
    rcases List.mem_cons.1 hs with rfl | hs' <;> rcases List.mem_cons.1 ht with rfl | ht'
    · rfl
    · have := (hb t ht').1; omega
    · have := (hb s hs').1; omega
    · exact hi s hs' t ht' n h1 h2 h3 h4

/-- C148. After sorting, sections do not overlap. -/
theorem sorted_apart (l out : List Sect) (h : SortSections l out) : Spec.Boundary.Disjoint out :=
  tiled_apart _ _ _ (sort_renumbers l out h).2.2

theorem covers_section {E : Elem} {secs : List Sect} {s : Sect} {cs : List Cell} (hs : s ∈ secs)
    (h : Holds E s cs) : Covers E secs s.first s.last cs := by
  refine ⟨h.count, ?_⟩
  intro i c hc
  exact ⟨s, hs, cs, h, Nat.le_add_right _ _, by rw [Nat.add_sub_cancel_left]; exact hc⟩

/-! ## Conditions follow -/

/-- C148. Sections are read and sorted in any admissible way, then the ranges of the conditions are updated. If every
condition is about one section, in name and in numbers, then the update succeeds, and every condition covers the same
cells in the new numbering as it did in the file. -/
theorem conditions_follow (E : Elem) (l out : List Sect) (css : List (List Cell)) (bcs : List BC)
    (hl : List.Forall₂ (Holds E) l css) (h : SortSections l out)
    (hb : ∀ b ∈ bcs, ∃ s, Names l b.name b.lo b.hi s) :
    ∃ bcs', updateRanges out bcs = (bcs', true) ∧
      List.Forall₂ (fun b b' => b'.name = b.name ∧
        ∃ cells, Covers E l b.lo b.hi cells ∧ Covers E out b'.lo b'.hi cells) bcs bcs' := by
  have htile := (sort_renumbers l out h).2.2
  obtain ⟨⟨l', hp, hsame, _⟩, _, _⟩ := sort_renumbers l out h
  have hplace := tiled_holds (E := E) out 1 1 (le_refl _) htile
  clear h
  induction bcs with
  | nil => exact ⟨[], rfl, .nil⟩
  | cons b bs ih =>
    obtain ⟨bs', h1, h2⟩ := ih (fun x hx => hb x (by simp [hx]))
    obtain ⟨s, hs, h3, h4, h5, h6⟩ := hb b (by simp)
    obtain ⟨s', hs', hss'⟩ := forall₂_mem_left hsame (hp.mem_iff.2 hs)
    cases hg : getSection b.name out with
    | none =>
      exact absurd (hss'.1 ▸ h5) ((getSection_none _ _).1 hg s' hs')
    | some t =>
      obtain ⟨a, c, k1, k2, _⟩ := (getSection_some _ _ _).1 hg
      have ht : t ∈ out := by simp [k1]
      obtain ⟨u, hu, hut⟩ := forall₂_mem_right hsame ht
      obtain rfl : u = s := h6 u (hp.mem_iff.1 hu) (hut.1 ▸ k2)
      obtain ⟨cs, _, hcs⟩ := forall₂_mem_left hl hs
      refine ⟨{ b with lo := t.first, hi := t.last } :: bs', ?_, .cons ⟨rfl, cs, ?_, ?_⟩ h2⟩
      · rw [updateRanges, hg]
        simp only [h1]
      · rw [h3, h4]; exact covers_section hs hcs
      · exact covers_section ht (holds_moved hcs hut (hplace t ht).1 (hplace t ht).2)

/-- C148. Only names and ranges of sections matter: reordering cells inside sections, as `Shuffle` does, changes
nothing. -/
theorem update_congr (secs secs' : List Sect) (bcs : List BC)
    (h : List.Forall₂ (fun s s' => s.name = s'.name ∧ s.first = s'.first ∧ s.last = s'.last) secs secs') :
    updateRanges secs bcs = updateRanges secs' bcs := by
  have hg : ∀ name, (getSection name secs).map (fun s => (s.first, s.last)) =
      (getSection name secs').map (fun s => (s.first, s.last)) := by
    intro name
    induction h with
    | nil => rfl
    | cons hab _ ih =>
      rw [getSection, getSection, hab.1]
      split
      · simp [hab.2.1, hab.2.2]
      · exact ih
  induction bcs with
  | nil => rfl
  | cons b bs ih =>
    have := hg b.name
    rw [updateRanges, updateRanges, ih]
    cases h1 : getSection b.name secs <;> cases h2 : getSection b.name secs' <;>
      simp_all

/-- C148. What an update that comes to its end does, condition by condition. -/
theorem update_first (secs : List Sect) : ∀ (bcs bcs' : List BC),
    updateRanges secs bcs = (bcs', true) ↔
      List.Forall₂ (fun b b' => b'.name = b.name ∧ ∃ a s c, secs = a ++ s :: c ∧ b.name <:+ s.name ∧
        (∀ t ∈ a, ¬ b.name <:+ t.name) ∧ b'.lo = s.first ∧ b'.hi = s.last) bcs bcs' := by
  intro bcs
  induction bcs with
  | nil =>
    intro bcs'
    simp only [updateRanges, List.forall₂_nil_left_iff, Prod.mk.injEq, and_true]
    exact eq_comm
  | cons b bs ih =>
    intro bcs'
    rw [updateRanges]
    cases hg : getSection b.name secs with
    | none =>
      simp only [Prod.mk.injEq, Bool.false_eq_true, and_false, false_iff]
      intro h
      cases h with
      | cons h1 _ =>
        obtain ⟨_, a, s, c, k1, k2, _⟩ := h1
        exact (getSection_none _ _).1 hg s (by simp [k1]) k2
    | some s =>
      obtain ⟨a, c, k1, k2, k3⟩ := (getSection_some _ _ _).1 hg
      simp only
      constructor
      · intro h
        obtain ⟨h1, h2⟩ := Prod.mk.inj h
        rw [← h1]
        exact .cons ⟨rfl, a, s, c, k1, k2, k3, rfl, rfl⟩ ((ih _).1 (Prod.ext rfl h2))
      · intro h
        cases h with
        | @cons _ b' _ bs' h1 h2 =>
          obtain ⟨hn, a', s', c', j1, j2, j3, j4, j5⟩ := h1
          have := (getSection_some b.name secs s').2 ⟨a', c', j1, j2, j3⟩
          obtain rfl := Option.some.inj (hg.symm.trans this)
          have h3 := (ih bs').2 h2
          rw [h3]
          cases b'
          simp_all

/-- C148. The update stops at the first condition that no section is named after: those before are updated, this one
and all those behind it keep the numbers of the file. -/
theorem update_stops (secs : List Sect) (b : BC) (post : List BC)
    (hb : ∀ t ∈ secs, ¬ b.name <:+ t.name) : ∀ (pre pre' : List BC),
    updateRanges secs pre = (pre', true) →
    updateRanges secs (pre ++ b :: post) = (pre' ++ b :: post, false) := by
  intro pre
  induction pre with
  | nil =>
    intro pre' h
    obtain rfl : [] = pre' := (Prod.mk.inj h).1
    rw [List.nil_append, updateRanges, (getSection_none _ _).2 hb]
  | cons x xs ih =>
    intro pre' h
    rw [updateRanges] at h
    rw [List.cons_append, updateRanges]
    cases hg : getSection x.name secs with
    | none => rw [hg] at h; simp at h
    | some s =>
      rw [hg] at h
      obtain ⟨h1, h2⟩ := Prod.mk.inj h
      have := ih (updateRanges secs xs).1 (Prod.ext rfl h2)
      simp only [this, ← h1, List.cons_append]

/-- C148. Updating twice is updating once. -/
theorem update_again (secs : List Sect) : ∀ bcs : List BC,
    updateRanges secs (updateRanges secs bcs).1 = updateRanges secs bcs := by
  intro bcs
  induction bcs with
  | nil => rfl
  | cons b bs ih =>
    cases hg : getSection b.name secs with
    | none =>
      have : updateRanges secs (b :: bs) = (b :: bs, false) := by rw [updateRanges, hg]
      rw [this, this]
    | some s =>
      have h1 : updateRanges secs (b :: bs) =
          ({ b with lo := s.first, hi := s.last } :: (updateRanges secs bs).1, (updateRanges secs bs).2) := by
        rw [updateRanges, hg]
      rw [h1, updateRanges]
      simp only [hg, ih]

/-- C148. Where the file lists its sections in the order and with the numbers sorting would give them, nothing moves,
and the conditions hold without an update. -/
theorem ordered_stays (l out : List Sect) (ht : Tiled l 1 1)
    (ho : l.Pairwise (fun a b => b.dim ≤ a.dim)) (h : SortSections l out) : out = l := by
  have hid : ∀ (l : List Sect) (i next : Nat), Tiled l i next → l.Pairwise (fun a b => a.id < b.id) := by
    intro l
    induction l with
    | nil => intro _ _ _; exact .nil
    | cons a l ih =>
      intro i next h
      obtain ⟨h1, _, _, h4⟩ := h
      refine .cons ?_ (ih _ _ h4)
      intro b hb
      have := (tiled_disjoint _ _ _ h4 b hb).2
      omega
  have hren : ∀ (l : List Sect) (i next : Nat), 1 ≤ next → Tiled l i next → renumber l i next = l := by
    intro l
    induction l with
    | nil => intro _ _ _ _; rfl
    | cons a l ih =>
      intro i next hn h
      obtain ⟨h1, h2, h3, h4⟩ := h
      rw [renumber]
      have e1 : next + a.count - 1 = a.last := by omega
      have e2 : next + a.count = a.last + 1 := by omega
      rw [e1, e2, ih _ _ (by omega) h4, ← h1, ← h2]
  have hself : SortSections l l := by
    refine ⟨l, ⟨.refl _, ?_⟩, (hren l 1 1 (le_refl _) ht).symm⟩
    refine (ho.and (hid l 1 1 ht)).imp ?_
    intro a b hab
    have h1 : ¬ a.dim < b.dim := not_lt.2 hab.1
    have h2 : ¬ b.id < a.id := not_lt.2 (le_of_lt hab.2)
    simp only [before, h1, h2, decide_false, Bool.and_false, Bool.or_self]
  refine sort_deterministic l out l ?_ h hself
  intro a ha b hb _ hab
  have key : ∀ (l : List Sect), l.Pairwise (fun a b => a.id < b.id) → ∀ a ∈ l, ∀ b ∈ l, a.id = b.id → a = b := by
    intro l hp
    induction hp with
    | nil => intro a ha; simp at ha
    | cons hx _ ih =>
      intro a ha b hb hab
      rcases List.mem_cons.1 ha with rfl | ha' <;> rcases List.mem_cons.1 hb with rfl | hb'
      · rfl
      · exact absurd hab (Nat.ne_of_lt (hx b hb'))
      · exact absurd hab.symm (Nat.ne_of_lt (hx a ha'))
      · exact ih a ha' b hb' hab
  exact key l (hid l 1 1 ht) a ha b hb hab

/-! ## Names of solutions and fields -/

theorem nameLoop_spec (name : List Nat) : ∀ (names : List (List Nat)) (i k : Nat),
    nameLoop name i names = k ↔
      (∃ j, k = i + j ∧ names[j]? = some name ∧ ∀ m < j, names[m]? ≠ some name) ∨
      (k = i + names.length ∧ name ∉ names) := by
  intro names
  induction names with
  | nil =>
    intro i k
    simp only [nameLoop, List.getElem?_nil, reduceCtorEq, false_and, and_false, exists_false,
      List.length_nil, Nat.add_zero, List.not_mem_nil, not_false_eq_true, and_true, false_or]
    exact eq_comm
  | cons n ns ih =>
    intro i k
    rw [nameLoop]
    split
    · rename_i hn
      constructor
      · rintro rfl
        exact Or.inl ⟨0, rfl, by rw [hn]; rfl, by simp⟩
      · rintro (⟨j, h1, h2, h3⟩ | ⟨h1, h2⟩)
        · cases j with
          | zero => exact h1.symm
          | succ j => exact absurd (by rw [hn]; rfl) (h3 0 (Nat.succ_pos _))
        · exact absurd (by rw [hn]; simp) h2
    · rename_i hn
      rw [ih]
      constructor
      · rintro (⟨j, h1, h2, h3⟩ | ⟨h1, h2⟩)
        · refine Or.inl ⟨j + 1, by omega, h2, ?_⟩
          intro m hm
          cases m with
          | zero => simpa using hn
          | succ m => exact h3 m (by omega)
        · refine Or.inr ⟨by rw [List.length_cons]; omega, ?_⟩
          intro h
          rcases List.mem_cons.1 h with h | h
          · exact hn h.symm
          · exact h2 h
      · rintro (⟨j, h1, h2, h3⟩ | ⟨h1, h2⟩)
        · cases j with
          | zero => exact absurd (Option.some.inj h2) hn
          | succ j =>
            refine Or.inl ⟨j, by omega, h2, ?_⟩
            intro m hm
            exact h3 (m + 1) (by omega)
        · refine Or.inr ⟨by rw [List.length_cons] at h1; omega, ?_⟩
          intro h; exact h2 (by simp [h])

/-- C148. `SolnNameToId` and `FieldNameToId` give the number, from 1 on, of the first entry with the name; an unknown
name trips the assertion. -/
theorem name_found (names : List (List Nat)) (name : List Nat) (k : Nat) :
    nameToIdChecked names name = some k ↔
      ∃ j, k = j + 1 ∧ names[j]? = some name ∧ ∀ m < j, names[m]? ≠ some name := by
  have hs := nameLoop_spec name names 1
  unfold nameToIdChecked
  constructor
  · intro h
    split at h
    · rename_i hle
      obtain rfl := Option.some.inj h
      rcases (hs _).1 rfl with ⟨j, h1, h2, h3⟩ | ⟨h1, _⟩
      · exact ⟨j, by unfold nameToId; omega, h2, h3⟩
      · unfold nameToId at hle; omega
    · cases h
  · rintro ⟨j, rfl, h2, h3⟩
    have h1 : nameToId names name = j + 1 := (hs _).2 (Or.inl ⟨j, by omega, h2, h3⟩)
    have := (List.getElem?_eq_some_iff.1 h2).1
    rw [h1, if_pos (by omega)]

/-- C148. Without assertions an unknown name gives a number one past the last entry, which is passed on to CGNS. -/
theorem name_unknown (names : List (List Nat)) (name : List Nat) :
    nameToId names name = names.length + 1 ↔ name ∉ names := by
  have hs := (nameLoop_spec name names 1 (names.length + 1))
  unfold nameToId
  rw [hs]
  constructor
  · rintro (⟨j, h1, h2, _⟩ | ⟨_, h⟩)
    · have := (List.getElem?_eq_some_iff.1 h2).1; omega
    · exact h
  · intro h; exact Or.inr ⟨by omega, h⟩

example : nameToIdChecked [[65], [66], [66]] [66] = some 2 := rfl
example : nameToIdChecked [[65], [66]] [67] = none := rfl

/-! ## Examples and counterexamples -/

/-- The mesh of `Verif/Props/Sections.lean` with a condition on each surface. -/
def surfaces : List BC := [⟨[65], 1, 2⟩, ⟨[67], 4, 4⟩, ⟨[68], 5, 5⟩]

theorem surfaces_named : ∀ b ∈ surfaces, ∃ s, Names [triA, tet, quad, triB] b.name b.lo b.hi s := by
  intro b hb
  simp only [surfaces, List.mem_cons, List.not_mem_nil, or_false] at hb
  rcases hb with rfl | rfl | rfl
  · exact ⟨triA, by simp, rfl, rfl, by decide, by
      intro t ht; simp only [List.mem_cons, List.not_mem_nil, or_false] at ht
      rcases ht with rfl | rfl | rfl | rfl <;>
        first | exact fun _ => rfl | exact fun h => absurd h (by decide)⟩
  · exact ⟨quad, by simp, rfl, rfl, by decide, by
      intro t ht; simp only [List.mem_cons, List.not_mem_nil, or_false] at ht
      rcases ht with rfl | rfl | rfl | rfl <;>
        first | exact fun _ => rfl | exact fun h => absurd h (by decide)⟩
  · exact ⟨triB, by simp, rfl, rfl, by decide, by
      intro t ht; simp only [List.mem_cons, List.not_mem_nil, or_false] at ht
      rcases ht with rfl | rfl | rfl | rfl <;>
        first | exact fun _ => rfl | exact fun h => absurd h (by decide)⟩

example (out : List Sect) (h : SortSections [triA, tet, quad, triB] out) :
    ∃ bcs', updateRanges out surfaces = (bcs', true) := by
  obtain ⟨bcs', h1, _⟩ := conditions_follow elem _ out contents surfaces mesh_holds h surfaces_named
  exact ⟨bcs', h1⟩

/-- "SW" (a side wall), "W" (a wall) and the tetrahedra. -/
def sideWall : Sect := ⟨1, [83, 87], 1, 1, 2, 2, [1, 2, 3], []⟩
def wall : Sect := ⟨2, [87], 2, 2, 2, 2, [2, 3, 4], []⟩
def body : Sect := ⟨3, [66], 3, 3, 4, 3, [1, 2, 3, 4], []⟩

/-- The sections after sorting. -/
def sortedWalls : List Sect :=
  [{ body with id := 1, first := 1, last := 1 }, { sideWall with id := 2, first := 2, last := 2 },
   { wall with id := 3, first := 3, last := 3 }]

theorem walls_sorted : SortSections [sideWall, wall, body] sortedWalls :=
  ⟨[body, sideWall, wall],
    ⟨(List.perm_append_comm (l₁ := [body]) (l₂ := [sideWall, wall])), by decide⟩, rfl⟩

theorem walls_hold : List.Forall₂ (Holds elem) [sideWall, wall, body]
    [[(2, [1, 2, 3])], [(2, [2, 3, 4])], [(4, [1, 2, 3, 4])]] := by
  refine .cons ?_ (.cons ?_ (.cons ?_ .nil)) <;>
  exact ⟨by decide, by decide, by decide, by decide, by decide⟩

/-- C148, finding. Sections and conditions have the same names, "SW" and "W", but looking for "W" finds "SW", whose
name ends in it and which comes first: the condition of the wall is now the condition of the side wall. -/
theorem suffix_steals :
    (∃ s ∈ sortedWalls, s.name = [87] ∧ s.first = 3 ∧ s.last = 3) ∧
    updateRanges sortedWalls [⟨[87], 2, 2⟩] = ([⟨[87], 2, 2⟩], true) ∧
    Covers elem [sideWall, wall, body] 2 2 [(2, [2, 3, 4])] ∧
    Covers elem sortedWalls 2 2 [(2, [1, 2, 3])] ∧
    ¬ Covers elem sortedWalls 2 2 [(2, [2, 3, 4])] := by
  have hc : Covers elem sortedWalls 2 2 [(2, [1, 2, 3])] :=
    covers_section (s := { sideWall with id := 2, first := 2, last := 2 }) (by simp [sortedWalls])
      ⟨by decide, by decide, by decide, by decide, by decide⟩
  refine ⟨⟨{ wall with id := 3, first := 3, last := 3 }, by simp [sortedWalls], rfl, rfl, rfl⟩, rfl, ?_, hc, ?_⟩
  · refine covers_section (s := wall) (by simp) ⟨by decide, by decide, by decide, by decide, by decide⟩
  · intro h
    have := covers_unique elem elem_pos _ (sorted_apart _ _ walls_sorted) _ _ _ _ hc h
    exact absurd this (by decide)

/-- C148, finding. Without an update, that is, when a mesh is read and written without being shuffled, conditions
keep the numbers of the file and so cover other cells: here the condition of the side wall covers the tetrahedron. -/
theorem stale_without_update :
    Covers elem [sideWall, wall, body] 1 1 [(2, [1, 2, 3])] ∧
    Covers elem sortedWalls 1 1 [(4, [1, 2, 3, 4])] ∧
    ¬ Covers elem sortedWalls 1 1 [(2, [1, 2, 3])] := by
  have hc : Covers elem sortedWalls 1 1 [(4, [1, 2, 3, 4])] :=
    covers_section (s := { body with id := 1, first := 1, last := 1 }) (by simp [sortedWalls])
      ⟨by decide, by decide, by decide, by decide, by decide⟩
  refine ⟨?_, hc, ?_⟩
  · exact covers_section (s := sideWall) (by simp) ⟨by decide, by decide, by decide, by decide, by decide⟩
  · intro h
    have := covers_unique elem elem_pos _ (sorted_apart _ _ walls_sorted) _ _ _ _ hc h
    exact absurd this (by decide)

/-- A surface "S" that mesh generators write as two sections, "3S" of triangles and "4S" of quadrangles. -/
def tris : Sect := ⟨1, [51, 83], 1, 1, 2, 2, [1, 2, 3], []⟩
def quads : Sect := ⟨2, [52, 83], 2, 2, 3, 2, [2, 3, 4, 5], []⟩

/-- C148, finding. A condition on a surface of two sections keeps the first section only, even where sorting moves
nothing and the condition was right before. -/
theorem second_section_lost :
    SortSections [tris, quads] [tris, quads] ∧
    Covers elem [tris, quads] 1 2 [(2, [1, 2, 3]), (3, [2, 3, 4, 5])] ∧
    updateRanges [tris, quads] [⟨[83], 1, 2⟩] = ([⟨[83], 1, 1⟩], true) ∧
    ¬ Covers elem [tris, quads] 1 1 [(2, [1, 2, 3]), (3, [2, 3, 4, 5])] := by
  refine ⟨⟨[tris, quads], ⟨.refl _, by decide⟩, rfl⟩, ⟨rfl, ?_⟩, rfl, ?_⟩
  · intro i c hc
    match i with
    | 0 =>
      exact ⟨tris, by simp, [(2, [1, 2, 3])], ⟨by decide, by decide, by decide, by decide, by decide⟩,
        by decide, by simpa [tris] using hc⟩
    | 1 =>
      exact ⟨quads, by simp, [(3, [2, 3, 4, 5])], ⟨by decide, by decide, by decide, by decide, by decide⟩,
        by decide, by simpa [quads] using hc⟩
    | i + 2 => simp at hc
  · intro h
    exact absurd h.1 (by decide)

/-- Updating stops at a condition without a section. -/
example : updateRanges sortedWalls [⟨[83, 87], 1, 1⟩, ⟨[90], 3, 3⟩, ⟨[66], 3, 3⟩] =
    ([⟨[83, 87], 2, 2⟩, ⟨[90], 3, 3⟩, ⟨[66], 3, 3⟩], false) := rfl

example : getSection [87] [wall, body] = some wall :=
  lookup_own _ wall (by simp) (by
    intro t ht; simp only [List.mem_cons, List.not_mem_nil, or_false] at ht
    rcases ht with rfl | rfl
    · intro _; rfl
    · intro h; exact absurd h (by decide))

example : [tris, quads] = [tris, quads] :=
  ordered_stays _ _ ⟨rfl, rfl, rfl, rfl, rfl, rfl, trivial⟩ (by decide)
    ⟨[tris, quads], ⟨.refl _, by decide⟩, rfl⟩

end MiniCFD.Boundary
