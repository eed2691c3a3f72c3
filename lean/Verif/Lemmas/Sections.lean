import Verif.Spec.Sections
import Mathlib.Data.List.Forall2
import Mathlib.Data.List.Nodup
import Mathlib.Data.List.Perm.Basic
import Mathlib.Tactic.Common

namespace MiniCFD.Sections
open MiniCFD.Spec.Sections

/-! ### lists -/

theorem forall₂_mem_right {α β : Type} {R : α → β → Prop} {as : List α} {bs : List β}
    (h : List.Forall₂ R as bs) {b : β} (hb : b ∈ bs) : ∃ a ∈ as, R a b := by
  induction h with
  | nil => simp at hb
  | @cons x y xs ys hxy _ ih =>
    rcases List.mem_cons.1 hb with rfl | hb
    · exact ⟨x, by simp, hxy⟩
    · obtain ⟨c, h3, h4⟩ := ih hb
      exact ⟨c, by simp [h3], h4⟩

theorem forall₂_map_eq {α γ : Type} {R : α → α → Prop} {f : α → γ} (hf : ∀ a b, R a b → f a = f b)
    {as bs : List α} (h : List.Forall₂ R as bs) : bs.map f = as.map f := by
  induction h with
  | nil => rfl
  | cons hab _ ih => simp only [List.map_cons, ih, hf _ _ hab]

/-! ### renumbering -/

theorem renumber_count (s : Sect) (i next : Nat) (hn : 1 ≤ next) :
    ({ s with id := i, first := next, last := next + s.count - 1 } : Sect).count = s.count := by
  generalize hc : s.count = c
  simp only [Sect.count]
  omega

theorem renumber_spec : ∀ (l : List Sect) (i next : Nat), 1 ≤ next →
    List.Forall₂ SameButPlace l (renumber l i next) ∧ Tiled (renumber l i next) i next := by
  intro l
  induction l with
  | nil => intro i next _; exact ⟨.nil, trivial⟩
  | cons s ss ih =>
    intro i next hn
    obtain ⟨h1, h2⟩ := ih (i + 1) (next + s.count) (by omega)
    have hc := renumber_count s i next hn
    refine ⟨.cons ⟨rfl, rfl, rfl, rfl, rfl, hc.symm⟩ h1, rfl, rfl, ?_, ?_⟩
    · rw [hc]; simp only; omega
    · simp only
      rw [show next + s.count - 1 + 1 = next + s.count by omega]
      exact h2

theorem tiled_holds {E : Elem} : ∀ (l : List Sect) (i next : Nat), 1 ≤ next → Tiled l i next →
    ∀ s ∈ l, 1 ≤ s.first ∧ s.last + 1 = s.first + s.count := by
  intro l
  induction l with
  | nil => intro i next _ _ s hs; simp at hs
  | cons a l ih =>
    intro i next hn h s hs
    obtain ⟨_, h2, h3, h4⟩ := h
    rcases List.mem_cons.1 hs with rfl | hs
    · exact ⟨by omega, by omega⟩
    · exact ih (i + 1) (a.last + 1) (by omega) h4 s hs

theorem holds_moved {E : Elem} {a b : Sect} {cs : List Cell} (h : Holds E a cs)
    (hs : SameButPlace a b) (h1 : 1 ≤ b.first) (h2 : b.last + 1 = b.first + b.count) :
    Holds E b cs := by
  obtain ⟨_, ht, _, hc, ho, hn⟩ := hs
  have hac : a.count = cs.length := by
    have := h.count; unfold Sect.count; omega
  refine ⟨h1, by rw [h2, ← hn, hac], h.sizes, ?_, ?_⟩
  · rw [← ht, ← hc]; exact h.plain
  · rw [← ht, ← hc, ← ho]; exact h.mix

/-! ### rows -/

theorem flatMap_width {w : Nat} (cs : List Cell) (h : ∀ c ∈ cs, c.2.length = w) :
    (cs.flatMap Prod.snd).length = w * cs.length := by
  induction cs with
  | nil => simp
  | cons c cs ih =>
    simp only [List.flatMap_cons, List.length_append, List.length_cons]
    rw [h c (by simp), ih (fun d hd => h d (by simp [hd])), Nat.mul_succ]; omega

def enc (cs : List Cell) : List Nat := cs.flatMap (fun c => c.1 :: c.2)

theorem enc_append (a b : List Cell) : enc (a ++ b) = enc a ++ enc b := by simp [enc]

theorem starts_get (a : List Cell) (b : List Cell) (k : Nat) :
    (starts k (a ++ b))[a.length]? = some (k + (enc a).length) := by
  induction a generalizing k with
  | nil => cases b <;> simp [starts, enc]
  | cons c a ih =>
    simp only [List.cons_append, starts, List.length_cons, List.getElem?_cons_succ]
    rw [ih]; simp [enc]; omega

theorem starts_snoc (a : List Cell) (c : Cell) (k : Nat) :
    starts k (a ++ [c]) = starts k a ++ [k + (enc (a ++ [c])).length] := by
  induction a generalizing k with
  | nil => simp [starts, enc]; omega
  | cons d a ih =>
    simp only [List.cons_append, starts]
    rw [ih]; simp [enc]; omega

theorem row_plain {E : Elem} (hE : PosNpe E) {s : Sect} {a b : List Cell} {c : Cell}
    (h : Holds E s (a ++ c :: b)) (ht : s.type ≠ E.mixed) :
    s.row E (s.first + a.length) = some (c.2 ++ b.flatMap Prod.snd) ∧ c.2.length = E.npe s.type := by
  obtain ⟨h1, h2⟩ := h.plain ht
  have hw : ∀ d ∈ a ++ c :: b, d.2.length = E.npe s.type := by
    intro d hd; rw [(h.sizes d hd).2, h1 d hd]
  have hc : c.2.length = E.npe s.type := hw c (by simp)
  have hpos := hE s.type ht
  have ha := flatMap_width a (fun d hd => hw d (by simp [hd]))
  refine ⟨?_, hc⟩
  unfold Sect.row
  rw [if_neg (by omega)]
  simp only [if_neg ht, Nat.add_sub_cancel_left, Option.bind_eq_bind, Option.bind_some]
  have hconn : s.conn = a.flatMap Prod.snd ++ (c.2 ++ b.flatMap Prod.snd) := by
    rw [h2]; simp
  rw [hconn, ← ha, if_pos (by simp; omega), List.drop_left]

theorem row_mixed {E : Elem} {s : Sect} {a b : List Cell} {c : Cell}
    (h : Holds E s (a ++ c :: b)) (ht : s.type = E.mixed) :
    s.row E (s.first + a.length) = some (c.1 :: c.2 ++ enc b) := by
  obtain ⟨h1, h2⟩ := h.mix ht
  unfold Sect.row
  rw [if_neg (by omega)]
  simp only [if_pos ht, Nat.add_sub_cancel_left, Option.bind_eq_bind]
  rw [h2, starts_get, Option.bind_some]
  have hconn : s.conn = enc a ++ (c.1 :: c.2 ++ enc b) := by
    rw [h1]; simp [enc]
  rw [hconn, Nat.zero_add, if_pos (by simp), List.drop_left]

/-! ### merging -/

theorem holds_snoc {E : Elem} {m : Sect} {mcs : List Cell} {c : Cell} (h : Holds E m mcs)
    (ht : m.type = E.mixed) (hc : c.1 ≠ E.mixed ∧ c.2.length = E.npe c.1) :
    Holds E { m with conn := m.conn ++ c.1 :: c.2,
                     offs := m.offs ++ [(m.conn ++ c.1 :: c.2).length], last := m.last + 1 }
      (mcs ++ [c]) := by
  obtain ⟨h1, h2⟩ := h.mix ht
  have he : m.conn ++ c.1 :: c.2 = enc (mcs ++ [c]) := by rw [h1]; simp [enc]
  refine ⟨h.first, ?_, ?_, ?_, ?_⟩
  · have := h.count; simp; omega
  · intro d hd
    simp only [List.mem_append, List.mem_singleton] at hd
    rcases hd with hd | rfl
    · exact h.sizes d hd
    · exact hc
  · intro hn; exact absurd ht hn
  · intro _
    refine ⟨he, ?_⟩
    simp only
    rw [he, h2, starts_snoc]; simp

theorem mergeCells_spec {E : Elem} (hE : PosNpe E) {s : Sect} (ht : s.type ≠ E.mixed) :
    ∀ (b a : List Cell) (m : Sect) (mcs : List Cell), Holds E s (a ++ b) → Holds E m mcs →
      m.type = E.mixed →
      ∃ m', mergeCells E s b.length (s.first + a.length) m = some m' ∧ Holds E m' (mcs ++ b) ∧
        m'.type = E.mixed ∧ m'.dim = m.dim := by
  intro b
  induction b with
  | nil =>
    intro a m mcs _ hm hmt
    exact ⟨m, rfl, by simpa using hm, hmt, rfl⟩
  | cons c b ih =>
    intro a m mcs hs hm hmt
    obtain ⟨h1, h2⟩ := row_plain hE hs ht
    have hc1 : c.1 = s.type := (hs.plain ht).1 c (by simp)
    have hcs : c.1 ≠ E.mixed ∧ c.2.length = E.npe c.1 := hs.sizes c (by simp)
    have hm' := holds_snoc hm hmt hcs
    obtain ⟨m', h3, h4, h5, h6⟩ := ih (a ++ [c]) _ _ (by simpa using hs) hm' hmt
    refine ⟨m', ?_, by simpa using h4, h5, h6⟩
    simp only [List.length_cons, mergeCells, h1, Option.bind_eq_bind, Option.bind_some, readN]
    rw [if_pos (by simp; omega), ← h2, List.take_left, Option.bind_some]
    rw [hc1] at h3
    simpa [Nat.add_assoc] using h3

/-- Sections named by the list of ids; the empty list names all. -/
def Sel (sel : List Nat) (s : Sect) : Prop := sel = [] ∨ s.id ∈ sel

instance (sel : List Nat) (s : Sect) : Decidable (Sel sel s) := by unfold Sel; infer_instance

theorem holds_dim {E : Elem} {m : Sect} {mcs : List Cell} (h : Holds E m mcs) (d : Int) :
    Holds E { m with dim := d } mcs := ⟨h.first, h.count, h.sizes, h.plain, h.mix⟩

theorem mergeLoop_spec {E : Elem} (hE : PosNpe E) (sel : List Nat) {secs : List Sect}
    {css : List (List Cell)} (h : List.Forall₂ (Holds E) secs css)
    (hp : ∀ s ∈ secs, Sel sel s → s.type ≠ E.mixed) (m : Sect) (mcs : List Cell) (kept : List Sect)
    (hm : Holds E m mcs) (hmt : m.type = E.mixed) :
    ∃ m', mergeLoop E sel secs m kept =
        some (m', kept ++ secs.filter (fun s => decide (¬ Sel sel s))) ∧
      Holds E m' (mcs ++ ((secs.zip css).filter (fun p => decide (Sel sel p.1))).flatMap Prod.snd) ∧
      m'.type = E.mixed := by
  induction h generalizing m mcs kept with
  | nil => exact ⟨m, by simp [mergeLoop], by simpa using hm, hmt⟩
  | @cons s cs secs css hs _ ih =>
    by_cases hsel : Sel sel s
    · have hst := hp s (by simp) hsel
      obtain ⟨m1, h1, h2, h3, _⟩ := mergeCells_spec hE hst cs []
        { m with dim := max m.dim s.dim } mcs (by simpa using hs) (holds_dim hm _) hmt
      obtain ⟨m2, h4, h5, h6⟩ := ih (fun t ht => hp t (by simp [ht])) m1 (mcs ++ cs) kept h2 h3
      have hcount : s.count = cs.length := by have := hs.count; unfold Sect.count; omega
      refine ⟨m2, ?_, ?_, h6⟩
      · simp only [mergeLoop]
        rw [if_pos (by exact hsel), hcount]
        simp only [List.length_nil, Nat.add_zero] at h1
        rw [h1]
        simp only [Option.bind_eq_bind, Option.bind_some, h4, List.filter_cons, hsel]
        simp
      · simp only [List.zip_cons_cons, List.filter_cons, hsel]
        simpa [List.append_assoc] using h5
    · obtain ⟨m2, h4, h5, h6⟩ := ih (fun t ht => hp t (by simp [ht])) m mcs (kept ++ [s]) hm hmt
      refine ⟨m2, ?_, ?_, h6⟩
      · simp only [mergeLoop]
        rw [if_neg (by exact hsel), h4]
        simp [List.filter_cons, hsel]
      · simp only [List.zip_cons_cons, List.filter_cons, hsel]
        simpa using h5

/-! ### splitting -/

/-- The cells of type `t`. -/
def ofType (t : Nat) (cs : List Cell) : List Cell := cs.filter (fun c => c.1 = t)

structure GInv (E : Elem) (base : Nat) (gs : Groups) (i : Nat) (cs : List Cell) : Prop where
  holds : ∀ g ∈ gs, g.type ≠ E.mixed ∧ g.dim = E.dim g.type ∧ Holds E g (ofType g.type cs)
  types : (gs.map Sect.type).Nodup
  complete : ∀ c ∈ cs, c.1 ∈ gs.map Sect.type
  used : ∀ g ∈ gs, ofType g.type cs ≠ []
  ids : gs.map Sect.id = List.range' base gs.length
  next : i = base + gs.length

theorem addCell_types (E : Elem) (t : Nat) (nodes : List Nat) (i : Nat) (gs : Groups) :
    ((addCell E t nodes i gs).1.map Sect.type =
      if t ∈ gs.map Sect.type then gs.map Sect.type else gs.map Sect.type ++ [t]) ∧
    ((addCell E t nodes i gs).1.map Sect.id =
      if t ∈ gs.map Sect.type then gs.map Sect.id else gs.map Sect.id ++ [i]) ∧
    ((addCell E t nodes i gs).2 = if t ∈ gs.map Sect.type then i else i + 1) := by
  induction gs with
  | nil => simp [addCell]
  | cons g gs ih =>
    simp only [addCell]
    by_cases h : g.type = t
    · rw [if_pos h]; simp [h]
    · rw [if_neg h]
      simp only [List.map_cons, List.mem_cons]
      have h' : ¬ t = g.type := fun e => h e.symm
      simp only [h', false_or]
      refine ⟨?_, ?_, ?_⟩
      · rw [ih.1]; split <;> simp
      · rw [ih.2.1]; split <;> simp
      · exact ih.2.2

theorem addCell_mem (E : Elem) (t : Nat) (nodes : List Nat) (i : Nat) (gs : Groups)
    (hn : (gs.map Sect.type).Nodup) (g' : Sect) (hg : g' ∈ (addCell E t nodes i gs).1) :
    (g' ∈ gs ∧ g'.type ≠ t) ∨
    (∃ g ∈ gs, g.type = t ∧ g' = { g with conn := g.conn ++ nodes, last := g.last + 1 }) ∨
    (t ∉ gs.map Sect.type ∧ g' = { id := i, name := [], first := 1, last := 1, type := t,
                                   dim := E.dim t, conn := nodes, offs := [] }) := by
  induction gs with
  | nil =>
    simp only [addCell, List.mem_singleton] at hg
    exact Or.inr (Or.inr ⟨by simp, hg⟩)
  | cons g gs ih =>
    simp only [List.map_cons, List.nodup_cons] at hn
    simp only [addCell] at hg
    by_cases h : g.type = t
    · rw [if_pos h] at hg
      rcases List.mem_cons.1 hg with rfl | hg
      · exact Or.inr (Or.inl ⟨g, by simp, h, rfl⟩)
      · refine Or.inl ⟨by simp [hg], fun e => hn.1 ?_⟩
        rw [h, ← e]; exact List.mem_map_of_mem hg
    · rw [if_neg h] at hg
      rcases List.mem_cons.1 hg with rfl | hg
      · exact Or.inl ⟨by simp, h⟩
      · rcases ih hn.2 hg with ⟨h1, h2⟩ | ⟨g0, h1, h2, h3⟩ | ⟨h1, h2⟩
        · exact Or.inl ⟨by simp [h1], h2⟩
        · exact Or.inr (Or.inl ⟨g0, by simp [h1], h2, h3⟩)
        · refine Or.inr (Or.inr ⟨?_, h2⟩)
          simp only [List.map_cons, List.mem_cons, not_or]
          exact ⟨fun e => h e.symm, h1⟩

theorem ofType_snoc_eq (cs : List Cell) (c : Cell) :
    ofType c.1 (cs ++ [c]) = ofType c.1 cs ++ [c] := by
  simp [ofType, List.filter_append, List.filter_cons]

theorem ofType_snoc_ne (cs : List Cell) (c : Cell) {t : Nat} (h : t ≠ c.1) :
    ofType t (cs ++ [c]) = ofType t cs := by
  have : ¬ c.1 = t := fun e => h e.symm
  simp [ofType, List.filter_append, List.filter_cons, this]

theorem ofType_nil_of_not_mem {cs : List Cell} {t : Nat} (h : ∀ c ∈ cs, c.1 ≠ t) :
    ofType t cs = [] := by
  simp only [ofType, List.filter_eq_nil_iff, decide_eq_true_eq]
  exact h

theorem GInv.add {E : Elem} {base : Nat} {gs : Groups} {i : Nat} {cs : List Cell}
    (h : GInv E base gs i cs) {c : Cell} (hc : c.1 ≠ E.mixed ∧ c.2.length = E.npe c.1) :
    GInv E base (addCell E c.1 c.2 i gs).1 (addCell E c.1 c.2 i gs).2 (cs ++ [c]) := by
  obtain ⟨ht, hi, hn⟩ := addCell_types E c.1 c.2 i gs
  refine ⟨?_, ?_, ?_, ?_, ?_, ?_⟩
  · intro g' hg'
    rcases addCell_mem E c.1 c.2 i gs h.types g' hg' with ⟨h1, h2⟩ | ⟨g, h1, h2, h3⟩ | ⟨h1, h2⟩
    · rw [ofType_snoc_ne cs c h2]; exact h.holds g' h1
    · obtain ⟨h4, h5, h6⟩ := h.holds g h1
      have hgt : g'.type = c.1 := by rw [h3]; exact h2
      rw [hgt, ofType_snoc_eq]
      rw [h2] at h6
      refine ⟨hc.1, by rw [h3, ← h2]; exact h5, ?_⟩
      obtain ⟨h7, h8⟩ := h6.plain (by rw [h2]; exact hc.1)
      subst h3
      refine ⟨h6.first, ?_, ?_, ?_, ?_⟩
      · have := h6.count; simp; omega
      · intro d hd
        simp only [List.mem_append, List.mem_singleton] at hd
        rcases hd with hd | rfl
        · exact h6.sizes d hd
        · exact hc
      · intro _
        refine ⟨?_, ?_⟩
        · intro d hd
          simp only [List.mem_append, List.mem_singleton] at hd
          rcases hd with hd | rfl
          · exact h7 d hd
          · exact h2.symm
        · simp [h8]
      · intro hm; exact absurd hm (by simp only [h2]; exact hc.1)
    · have hno : ∀ d ∈ cs, d.1 ≠ c.1 := fun d hd e => h1 (e ▸ h.complete d hd)
      have hgt : g'.type = c.1 := by rw [h2]
      rw [hgt, ofType_snoc_eq, ofType_nil_of_not_mem hno]
      refine ⟨hc.1, by rw [h2], ?_⟩
      subst h2
      refine ⟨le_refl _, by simp, ?_, ?_, ?_⟩
      · simpa using hc
      · intro _; simp
      · intro hm; exact absurd hm hc.1
  · rw [ht]; split
    · exact h.types
    · rename_i hnot
      rw [List.nodup_append]
      refine ⟨h.types, by simp, ?_⟩
      intro a ha b hb hab
      simp only [List.mem_singleton] at hb
      subst hb; subst hab; exact hnot ha
  · intro d hd
    rw [ht]
    simp only [List.mem_append, List.mem_singleton] at hd
    rcases hd with hd | rfl
    · split
      · exact h.complete d hd
      · exact List.mem_append_left _ (h.complete d hd)
    · split
      · assumption
      · simp
  · intro g' hg'
    rcases addCell_mem E c.1 c.2 i gs h.types g' hg' with ⟨h1, h2⟩ | ⟨g, h1, h2, h3⟩ | ⟨h1, h2⟩
    · rw [ofType_snoc_ne cs c h2]; exact h.used g' h1
    · have hgt : g'.type = c.1 := by rw [h3]; exact h2
      rw [hgt, ofType_snoc_eq]; simp
    · have hgt : g'.type = c.1 := by rw [h2]
      rw [hgt, ofType_snoc_eq]; simp
  · have hl : (addCell E c.1 c.2 i gs).1.length =
        if c.1 ∈ gs.map Sect.type then gs.length else gs.length + 1 := by
      have := congrArg List.length ht
      rw [List.length_map] at this
      rw [this]; split <;> simp
    rw [hi, hl]
    split
    · exact h.ids
    · rw [h.ids, h.next, List.range'_concat]; simp
  · have hl : (addCell E c.1 c.2 i gs).1.length =
        if c.1 ∈ gs.map Sect.type then gs.length else gs.length + 1 := by
      have := congrArg List.length ht
      rw [List.length_map] at this
      rw [this]; split <;> simp
    rw [hn, hl, h.next]
    split <;> omega

theorem splitCells_spec {E : Elem} {s : Sect} (ht : s.type = E.mixed) {base : Nat} :
    ∀ (b a : List Cell) (gs : Groups) (i : Nat) (done : List Cell), Holds E s (a ++ b) →
      GInv E base gs i done →
      ∃ gs' i', splitCells E s b.length (s.first + a.length) gs i = some (gs', i') ∧
        GInv E base gs' i' (done ++ b) := by
  intro b
  induction b with
  | nil => intro a gs i done _ h; exact ⟨gs, i, rfl, by simpa using h⟩
  | cons c b ih =>
    intro a gs i done hs h
    have h1 := row_mixed hs ht
    have hc := hs.sizes c (by simp)
    obtain ⟨gs', i', h2, h3⟩ := ih (a ++ [c]) _ _ _ (by simpa using hs) (h.add hc)
    refine ⟨gs', i', ?_, by simpa using h3⟩
    simp only [List.length_cons, splitCells, h1, Option.bind_eq_bind, Option.bind_some, readN]
    simp only [List.cons_append, List.getElem?_cons_zero, Option.bind_some, List.drop_succ_cons,
      List.drop_zero]
    rw [if_pos (by simp; omega), ← hc.2, List.take_left, Option.bind_some]
    simpa [Nat.add_assoc] using h2

theorem splitLoop_spec {E : Elem} (sel : List Nat) {secs : List Sect} {css : List (List Cell)}
    (h : List.Forall₂ (Holds E) secs css) {base : Nat} (gs : Groups) (i : Nat) (done : List Cell)
    (kept : List Sect) (hg : GInv E base gs i done) :
    ∃ gs' i', splitLoop E sel secs gs i kept =
        some (gs', kept ++ secs.filter (fun s => decide (¬ (s.type = E.mixed ∧ Sel sel s)))) ∧
      GInv E base gs' i' (done ++ ((secs.zip css).filter
        (fun p => decide (p.1.type = E.mixed ∧ Sel sel p.1))).flatMap Prod.snd) := by
  induction h generalizing gs i done kept with
  | nil => exact ⟨gs, i, by simp [splitLoop], by simpa using hg⟩
  | @cons s cs secs css hs _ ih =>
    by_cases hsel : s.type = E.mixed ∧ Sel sel s
    · obtain ⟨gs1, i1, h1, h2⟩ := splitCells_spec hsel.1 cs [] gs i done (by simpa using hs) hg
      obtain ⟨gs2, i2, h3, h4⟩ := ih gs1 i1 (done ++ cs) kept h2
      have hcount : s.count = cs.length := by have := hs.count; unfold Sect.count; omega
      refine ⟨gs2, i2, ?_, ?_⟩
      · simp only [splitLoop]
        rw [if_pos (by exact hsel), hcount]
        simp only [List.length_nil, Nat.add_zero] at h1
        rw [h1]
        simp only [Option.bind_eq_bind, Option.bind_some, h3]
        rw [List.filter_cons_of_neg (by simp [hsel])]
      · simp only [List.zip_cons_cons]
        rw [List.filter_cons_of_pos (by simp [hsel])]
        simpa [List.append_assoc] using h4
    · obtain ⟨gs2, i2, h3, h4⟩ := ih gs i done (kept ++ [s]) hg
      refine ⟨gs2, i2, ?_, ?_⟩
      · simp only [splitLoop]
        rw [if_neg (by exact hsel), h3, List.filter_cons, if_pos (decide_eq_true hsel)]
        simp
      · simp only [List.zip_cons_cons]
        rw [List.filter_cons_of_neg (by simpa using hsel)]
        exact h4

end MiniCFD.Sections
