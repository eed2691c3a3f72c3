import Verif.Lemmas.Sections
import Mathlib.Data.List.Sort

namespace MiniCFD.Sections
open MiniCFD.Spec.Sections

/-! ## C12 -/

/-- C12. Whatever `std::sort` does with equal keys, the outcome of `SortSectionsByDim` holds the
same sections (same names, types, connectivities and sizes) in an order of nonincreasing dimension,
old ids increasing within a dimension, with new ids `1, 2, …` and with contiguous element ranges
that start at 1. -/
theorem sort_renumbers (l out : List Sect) (h : SortSections l out) :
    (∃ l', l'.Perm l ∧ List.Forall₂ SameButPlace l' out ∧
      l'.Pairwise (fun a b => b.dim < a.dim ∨ (b.dim = a.dim ∧ a.id ≤ b.id))) ∧
    out.Pairwise (fun a b => b.dim ≤ a.dim) ∧ Tiled out 1 1 := by
  obtain ⟨l', ⟨hp, hw⟩, rfl⟩ := h
  obtain ⟨h1, h2⟩ := renumber_spec l' 1 1 (le_refl _)
  have hw' : l'.Pairwise (fun a b => b.dim < a.dim ∨ (b.dim = a.dim ∧ a.id ≤ b.id)) := by
    refine hw.imp ?_
    intro a b hab
    simp only [before, Bool.or_eq_false_iff, decide_eq_false_iff_not, Bool.and_eq_false_iff,
      not_lt] at hab
    obtain ⟨h3, h4⟩ := hab
    rcases lt_or_eq_of_le h3 with h5 | h5
    · exact Or.inl h5
    · refine Or.inr ⟨h5, ?_⟩
      rcases h4 with h4 | h4
      · exact absurd h5 h4
      · exact h4
  refine ⟨⟨l', hp, h1, hw'⟩, ?_, h2⟩
  have hd : (renumber l' 1 1).map Sect.dim = l'.map Sect.dim :=
    forall₂_map_eq (fun a b hab => hab.2.2.1) h1
  have h3 : (l'.map Sect.dim).Pairwise (fun a b => b ≤ a) := by
    rw [List.pairwise_map]
    refine hw'.imp ?_
    rintro a b (h | ⟨h, _⟩) <;> omega
  rw [← hd, List.pairwise_map] at h3
  exact h3

theorem tiled_total : ∀ (l : List Sect) (i next : Nat), Tiled l i next →
    ∀ s, l.getLast? = some s → s.last + 1 = next + (l.map Sect.count).sum ∧
      s.id + 1 = i + l.length := by
  intro l
  induction l with
  | nil => intro i next _ s hs; simp at hs
  | cons a l ih =>
    intro i next h s hs
    obtain ⟨h1, h2, h3, h4⟩ := h
    cases l with
    | nil =>
      simp only [List.getLast?_singleton, Option.some.injEq] at hs
      subst hs; simp; omega
    | cons b l =>
      rw [List.getLast?_cons_cons] at hs
      have := ih (i + 1) (a.last + 1) h4 s hs
      simp only [List.map_cons, List.sum_cons, List.length_cons] at this ⊢
      omega

/-- C12. The last element id is the total number of elements, and the last section id the number
of sections. -/
theorem sort_total (l out : List Sect) (h : SortSections l out) (s : Sect)
    (hs : out.getLast? = some s) :
    s.last = (l.map Sect.count).sum ∧ s.id = l.length := by
  obtain ⟨l', ⟨hp, _⟩, rfl⟩ := h
  obtain ⟨h1, h2⟩ := renumber_spec l' 1 1 (le_refl _)
  have h3 := tiled_total _ 1 1 h2 s hs
  have h4 : ((renumber l' 1 1).map Sect.count) = l'.map Sect.count :=
    forall₂_map_eq (fun a b hab => hab.2.2.2.2.2) h1
  have h5 : (l'.map Sect.count).sum = (l.map Sect.count).sum := (hp.map _).sum_nat
  have h6 := hp.length_eq
  have h7 := h1.length_eq
  rw [h4] at h3
  omega

/-- C12. Sections whose (dimension, id) pairs differ have exactly one possible order. -/
theorem sort_deterministic (l out1 out2 : List Sect)
    (hd : ∀ a ∈ l, ∀ b ∈ l, a.dim = b.dim → a.id = b.id → a = b)
    (h1 : SortSections l out1) (h2 : SortSections l out2) : out1 = out2 := by
  obtain ⟨l1, ⟨hp1, hw1⟩, rfl⟩ := h1
  obtain ⟨l2, ⟨hp2, hw2⟩, rfl⟩ := h2
  have : l1 = l2 := by
    refine List.Perm.eq_of_pairwise (le := fun a b => before b a = false) ?_ hw1 hw2
      (hp1.trans hp2.symm)
    intro a b ha hb hab hba
    refine hd a (hp1.mem_iff.1 ha) b (hp2.mem_iff.1 hb) ?_ ?_ <;>
    · simp only [before, Bool.or_eq_false_iff, decide_eq_false_iff_not, Bool.and_eq_false_iff,
        not_lt] at hab hba
      obtain ⟨p1, p2⟩ := hab
      obtain ⟨q1, q2⟩ := hba
      have e : a.dim = b.dim := le_antisymm q1 p1
      rcases p2 with p2 | p2
      · exact absurd e.symm p2
      · rcases q2 with q2 | q2
        · exact absurd e q2
        · omega
  rw [this]

/-- C12. Sorting moves sections without touching the cells in them. -/
theorem sort_keeps_cells (E : Elem) (l out : List Sect) (css : List (List Cell))
    (hl : List.Forall₂ (Holds E) l css) (h : SortSections l out) :
    ∃ css', css'.Perm css ∧ List.Forall₂ (Holds E) out css' := by
  obtain ⟨l', ⟨hp, hw⟩, rfl⟩ := h
  obtain ⟨h1, h2⟩ := renumber_spec l' 1 1 (le_refl _)
  have h3 := tiled_holds (E := E) _ 1 1 (le_refl _) h2
  obtain ⟨css', h5, h6⟩ := List.perm_comp_forall₂ hp hl
  refine ⟨css', h6, ?_⟩
  clear h2 hp hl h6 hw
  generalize renumber l' 1 1 = o at *
  induction h1 generalizing css' with
  | nil => cases h5; exact .nil
  | cons hab _ ih =>
    cases h5 with
    | cons hx hxs =>
      refine .cons (holds_moved hx hab (h3 _ (by simp)).1 (h3 _ (by simp)).2) ?_
      exact ih _ hxs (fun s hs => h3 s (by simp [hs]))

/-- Types: 0 mixed, 2 triangle, 3 quadrangle, 4 tetrahedron. -/
def elem : Elem where
  mixed := 0
  npe := fun t => if t = 0 then 0 else if t = 2 then 3 else 4
  dim := fun t => if t = 0 then -1 else if t = 4 then 3 else 2

def triA : Sect := ⟨1, [65], 1, 2, 2, 2, [1, 2, 3, 2, 3, 4], []⟩
def tet : Sect := ⟨2, [66], 3, 3, 4, 3, [1, 2, 3, 5], []⟩
def quad : Sect := ⟨3, [67], 4, 4, 3, 2, [1, 2, 4, 3], []⟩
def triB : Sect := ⟨4, [68], 5, 5, 2, 2, [2, 4, 5], []⟩

def contents : List (List Cell) :=
  [[(2, [1, 2, 3]), (2, [2, 3, 4])], [(4, [1, 2, 3, 5])], [(3, [1, 2, 4, 3])], [(2, [2, 4, 5])]]

theorem elem_pos : PosNpe elem := by
  intro t ht
  simp only [elem] at ht ⊢
  rw [if_neg ht]; split <;> omega

theorem mesh_holds : List.Forall₂ (Holds elem) [triA, tet, quad, triB] contents := by
  refine .cons ?_ (.cons ?_ (.cons ?_ (.cons ?_ .nil))) <;>
  exact ⟨by decide, by decide, by decide, by decide, by decide⟩

/-- Four sections, the tetrahedra in the middle: they move to the front. -/
example : SortSections [triA, tet, quad, triB]
    [⟨1, [66], 1, 1, 4, 3, [1, 2, 3, 5], []⟩, ⟨2, [65], 2, 3, 2, 2, [1, 2, 3, 2, 3, 4], []⟩,
     ⟨3, [67], 4, 4, 3, 2, [1, 2, 4, 3], []⟩, ⟨4, [68], 5, 5, 2, 2, [2, 4, 5], []⟩] :=
  ⟨[tet, triA, quad, triB], ⟨List.Perm.swap _ _ _, by decide⟩, rfl⟩

/-! ## C13 -/

/-- C13. `MergeSections` of non-mixed sections never fails, keeps the sections it was not given,
and, unless there is no cell to merge, adds one mixed section that holds exactly the cells of the
given sections, in their order. -/
theorem merge_keeps_cells (E : Elem) (hE : PosNpe E) (sel : List Nat) (secs : List Sect)
    (css : List (List Cell)) (h : List.Forall₂ (Holds E) secs css)
    (hp : ∀ s ∈ secs, Sel sel s → s.type ≠ E.mixed) :
    ∃ m merged, merged = ((secs.zip css).filter (fun p => decide (Sel sel p.1))).flatMap Prod.snd ∧
      m.type = E.mixed ∧ Holds E m merged ∧
      merge E sel secs = some (secs.filter (fun s => decide (¬ Sel sel s)) ++
        if merged = [] then [] else [m]) := by
  have hm0 : Holds E (emptyMixed E) [] :=
    ⟨le_refl _, rfl, by simp, fun hn => absurd rfl hn, fun _ => ⟨rfl, rfl⟩⟩
  obtain ⟨m, h1, h2, h3⟩ := mergeLoop_spec hE sel h hp (emptyMixed E) [] [] hm0 rfl
  rw [List.nil_append] at h2
  refine ⟨m, _, rfl, h3, h2, ?_⟩
  unfold merge
  simp only [h1, Option.bind_eq_bind, Option.bind_some, Option.pure_def, List.nil_append]
  have hc : m.count = (((secs.zip css).filter
      (fun p => decide (Sel sel p.1))).flatMap Prod.snd).length := by
    have := h2.count; unfold Sect.count; omega
  by_cases he : ((secs.zip css).filter (fun p => decide (Sel sel p.1))).flatMap Prod.snd = []
  · rw [if_pos he, if_neg (by rw [hc, he]; simp)]; simp
  · rw [if_neg he, if_pos (by rw [hc]; exact fun e => he (List.length_eq_zero_iff.1 e))]

/-- The sections after a split: the untouched ones, and one section for each type found, holding
the cells of that type in their order. -/
structure SplitResult (E : Elem) (kept out : List Sect) (cells : List Cell) : Prop where
  groups : ∃ gs, out = kept ++ gs ∧ (gs.map Sect.type).Nodup ∧ (gs.map Sect.id).Nodup ∧
    (∀ t, t ∈ gs.map Sect.type ↔ ∃ c ∈ cells, c.1 = t) ∧
    ∀ g ∈ gs, g.type ≠ E.mixed ∧ g.dim = E.dim g.type ∧
      Holds E g (cells.filter (fun c => c.1 = g.type))

/-- C13. `SplitSections` never fails on well-formed sections and redistributes the cells of the
given mixed sections over one section per type, keeping their order. -/
theorem split_keeps_cells (E : Elem) (sel : List Nat) (secs : List Sect)
    (css : List (List Cell)) (h : List.Forall₂ (Holds E) secs css) :
    ∃ out, split E sel secs = some out ∧
      SplitResult E (secs.filter (fun s => decide (¬ (s.type = E.mixed ∧ Sel sel s)))) out
        (((secs.zip css).filter
          (fun p => decide (p.1.type = E.mixed ∧ Sel sel p.1))).flatMap Prod.snd) := by
  have hg0 : GInv E secs.length [] secs.length [] :=
    ⟨by simp, by simp, by simp, by simp, by simp, by simp⟩
  obtain ⟨gs, i, h1, h2⟩ := splitLoop_spec sel h [] secs.length [] [] hg0
  rw [List.nil_append] at h2
  refine ⟨_, by simp only [split, h1, Option.bind_eq_bind, Option.bind_some, Option.pure_def]; rfl,
    ⟨gs, by simp, h2.types, by rw [h2.ids]; exact List.nodup_range', ?_, h2.holds⟩⟩
  intro t
  constructor
  · intro ht
    obtain ⟨g, hg, rfl⟩ := List.mem_map.1 ht
    obtain ⟨c, hc⟩ := List.exists_mem_of_ne_nil _ (h2.used g hg)
    simp only [ofType, List.mem_filter, decide_eq_true_eq] at hc
    exact ⟨c, hc⟩
  · rintro ⟨c, hc, rfl⟩
    exact h2.complete c hc

theorem forall₂_zip_flatten (E : Elem) {secs : List Sect} {css : List (List Cell)}
    (h : List.Forall₂ (Holds E) secs css) :
    ((secs.zip css).filter (fun p => decide (Sel [] p.1))).flatMap Prod.snd = css.flatten := by
  induction h with
  | nil => rfl
  | cons _ _ ih =>
    simp only [List.zip_cons_cons, List.flatten_cons, ← ih]
    rw [List.filter_cons, if_pos (by simp [Sel])]; simp

/-- C13. The round trip. From any zone of non-mixed sections, `MergeSections({})` followed by
`SplitSections({})` (each with its final sort) leads to a zone whose sections have different types,
one for each type present, and the section of type `t` holds exactly the original cells of type
`t` — same nodes, same order — while sections are again tiled from 1 on. -/
theorem merge_split_round_trip (E : Elem) (hE : PosNpe E) (secs : List Sect)
    (css : List (List Cell)) (h : List.Forall₂ (Holds E) secs css)
    (hp : ∀ s ∈ secs, s.type ≠ E.mixed) (hne : css.flatten ≠ []) :
    ∃ a, merge E [] secs = some a ∧ ∀ b, SortSections a b →
      ∃ c, split E [] b = some c ∧ ∀ d, SortSections c d →
        Tiled d 1 1 ∧ (d.map Sect.type).Nodup ∧
        (∀ t, t ∈ d.map Sect.type ↔ ∃ x ∈ css.flatten, x.1 = t) ∧
        ∀ s ∈ d, Holds E s (css.flatten.filter (fun x => x.1 = s.type)) := by
  obtain ⟨m, merged, hmd, hmt, hmh, hme⟩ := merge_keeps_cells E hE [] secs css h
    (fun s hs _ => hp s hs)
  rw [forall₂_zip_flatten E h] at hmd
  subst hmd
  have hk : secs.filter (fun s => decide (¬ Sel [] s)) = [] := by
    simp [List.filter_eq_nil_iff, Sel]
  rw [hk, List.nil_append, if_neg hne] at hme
  refine ⟨_, hme, ?_⟩
  intro b hb
  obtain ⟨css', hcp, hb2⟩ := sort_keeps_cells E _ _ [css.flatten] (.cons hmh .nil) hb
  rw [List.perm_singleton] at hcp
  subst hcp
  cases hb2 with
  | @cons m' _ bs _ hm' hnil =>
    cases hnil
    have hm't : m'.type = E.mixed := by
      obtain ⟨l', ⟨hperm, _⟩, hr⟩ := hb
      rw [List.perm_singleton] at hperm
      subst hperm
      simp only [renumber, List.cons.injEq, and_true] at hr
      rw [hr]; exact hmt
    obtain ⟨c, hc, ⟨gs, hgs, g1, g2, g3, g4⟩⟩ := split_keeps_cells E [] [m'] [css.flatten]
      (.cons hm' .nil)
    have e1 : [m'].filter (fun s => decide (¬ (s.type = E.mixed ∧ Sel [] s))) = [] := by
      simp [List.filter_cons, hm't, Sel]
    have e2 : (([m'].zip [css.flatten]).filter
        (fun p => decide (p.1.type = E.mixed ∧ Sel [] p.1))).flatMap Prod.snd = css.flatten := by
      simp [List.filter_cons, hm't, Sel]
    rw [e2] at g3 g4
    rw [e1, List.nil_append] at hgs
    subst hgs
    refine ⟨c, hc, ?_⟩
    intro d hd
    obtain ⟨⟨l', hperm, hsame, _⟩, _, htile⟩ := sort_renumbers _ _ hd
    have hty : d.map Sect.type = l'.map Sect.type :=
      forall₂_map_eq (fun a b hab => hab.2.1) hsame
    refine ⟨htile, ?_, ?_, ?_⟩
    · rw [hty]; exact ((hperm.map _).nodup_iff).2 g1
    · intro t; rw [hty, (hperm.map _).mem_iff]; exact g3 t
    · intro s hs
      have hth := tiled_holds (E := E) _ 1 1 (le_refl _) htile s hs
      obtain ⟨g, hg, hgs⟩ := forall₂_mem_right hsame hs
      obtain ⟨_, _, h5⟩ := g4 g (hperm.mem_iff.1 hg)
      rw [← hgs.2.1]
      exact holds_moved h5 hgs hth.1 hth.2

/-- Two triangle sections separated by others: the split puts their cells together. -/
example : ∃ a, merge elem [] [triA, tet, quad, triB] = some a ∧ ∀ b, SortSections a b →
      ∃ c, split elem [] b = some c ∧ ∀ d, SortSections c d →
        Tiled d 1 1 ∧ (d.map Sect.type).Nodup ∧
        (∀ t, t ∈ d.map Sect.type ↔ ∃ x ∈ contents.flatten, x.1 = t) ∧
        ∀ s ∈ d, Holds elem s (contents.flatten.filter (fun x => x.1 = s.type)) :=
  merge_split_round_trip elem elem_pos _ contents mesh_holds (by decide) (by decide)

example : contents.flatten.filter (fun x => x.1 = 2) =
    [(2, [1, 2, 3]), (2, [2, 3, 4]), (2, [2, 4, 5])] := by decide

/-- A mixed section with one triangle. -/
def mixA : Sect := ⟨1, [65], 1, 1, 0, 2, [2, 7, 8, 9], [0, 4]⟩

/-- C13, finding. Merging a section that is already mixed loses its cells: the type `MIXED` has
no nodes per cell (`cg_npe` of the CGNS library reports 0, see cgns.hpp:57-58), so only the type
tag is copied. Here the nodes 7, 8, 9 are gone. -/
theorem merge_mixed_loses_cells :
    Holds elem mixA [(2, [7, 8, 9])] ∧
    ∃ m, merge elem [] [mixA] = some [m] ∧ m.conn = [0] ∧ m.count = 1 ∧
      ¬ Holds elem m [(2, [7, 8, 9])] :=
  ⟨⟨by decide, by decide, by decide, by decide, by decide⟩,
   _, rfl, rfl, rfl, fun h => absurd (h.mix rfl).1 (by decide)⟩

end MiniCFD.Sections
