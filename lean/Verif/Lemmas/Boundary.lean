import Verif.Lemmas.Sections
import Verif.Spec.Boundary

namespace MiniCFD.Boundary
open MiniCFD.Sections MiniCFD.Spec.Sections MiniCFD.Spec.Boundary

theorem matches_iff (sect name : List Nat) : matchesName sect name = true ↔ name <:+ sect := by
  unfold matchesName
  rw [decide_eq_true_iff]
  constructor
  · intro h
    rw [← h]
    exact List.drop_suffix _ _
  · rintro ⟨p, rfl⟩
    have hs : startOf (p ++ name) name = p.length := by
      unfold startOf
      rw [List.length_append]
      split <;> omega
    rw [hs, List.drop_left]

theorem getSection_some (name : List Nat) : ∀ (secs : List Sect) (s : Sect),
    getSection name secs = some s ↔
      ∃ a b, secs = a ++ s :: b ∧ name <:+ s.name ∧ ∀ t ∈ a, ¬ name <:+ t.name := by
  intro secs
  induction secs with
  | nil => intro s; simp [getSection]
  | cons x xs ih =>
    intro s
    rw [getSection]
    split
    · rename_i hx
      have hx' := (matches_iff _ _).1 hx
      constructor
      · intro h
        obtain rfl := Option.some.inj h
        exact ⟨[], xs, rfl, hx', by simp⟩
      · rintro ⟨a, b, h1, h2, h3⟩
        cases a with
        | nil => simp only [List.nil_append, List.cons.injEq] at h1; rw [h1.1]
        | cons y a =>
          simp only [List.cons_append, List.cons.injEq] at h1
          exact absurd hx' (h1.1 ▸ h3 y (by simp))
    · rename_i hx
      have hx' : ¬ name <:+ x.name := fun h => hx ((matches_iff _ _).2 h)
      rw [ih s]
      constructor
      · rintro ⟨a, b, h1, h2, h3⟩
        refine ⟨x :: a, b, by rw [h1]; rfl, h2, ?_⟩
        intro t ht
        rcases List.mem_cons.1 ht with rfl | ht
        · exact hx'
        · exact h3 t ht
      · rintro ⟨a, b, h1, h2, h3⟩
        cases a with
        | nil =>
          simp only [List.nil_append, List.cons.injEq] at h1
          exact absurd (h1.1 ▸ h2) hx'
        | cons y a =>
          simp only [List.cons_append, List.cons.injEq] at h1
          exact ⟨a, b, h1.2, h2, fun t ht => h3 t (by simp [ht])⟩

theorem getSection_none (name : List Nat) : ∀ secs : List Sect,
    getSection name secs = none ↔ ∀ t ∈ secs, ¬ name <:+ t.name := by
  intro secs
  induction secs with
  | nil => simp [getSection]
  | cons x xs ih =>
    rw [getSection]
    split
    · rename_i hx
      simp only [List.mem_cons, forall_eq_or_imp, reduceCtorEq, false_iff, not_and_or, not_not]
      exact Or.inl ((matches_iff _ _).1 hx)
    · rename_i hx
      have hx' : ¬ name <:+ x.name := fun h => hx ((matches_iff _ _).2 h)
      simp [ih, hx']

theorem forall₂_mem_left {α β : Type} {R : α → β → Prop} {as : List α} {bs : List β}
    (h : List.Forall₂ R as bs) {a : α} (ha : a ∈ as) : ∃ b ∈ bs, R a b := by
  induction h with
  | nil => simp at ha
  | @cons x y xs ys hxy _ ih =>
    rcases List.mem_cons.1 ha with rfl | ha
    · exact ⟨y, by simp, hxy⟩
    · obtain ⟨c, h3, h4⟩ := ih ha
      exact ⟨c, by simp [h3], h4⟩

/-- The nodes of cells of one type determine the cells. -/
theorem plain_unique {w t : Nat} (hw : 0 < w) : ∀ a b : List Cell,
    (∀ c ∈ a, c.1 = t ∧ c.2.length = w) → (∀ c ∈ b, c.1 = t ∧ c.2.length = w) →
    a.flatMap Prod.snd = b.flatMap Prod.snd → a = b := by
  intro a
  induction a with
  | nil =>
    intro b _ hb h
    cases b with
    | nil => rfl
    | cons y b =>
      have h1 := congrArg List.length h
      have h2 := (hb y (by simp)).2
      simp only [List.flatMap_nil, List.length_nil, List.flatMap_cons, List.length_append] at h1
      omega
  | cons x a ih =>
    intro b ha hb h
    cases b with
    | nil =>
      have h1 := congrArg List.length h
      have h2 := (ha x (by simp)).2
      simp only [List.flatMap_nil, List.length_nil, List.flatMap_cons, List.length_append] at h1
      omega
    | cons y b =>
      have hx := ha x (by simp)
      have hy := hb y (by simp)
      simp only [List.flatMap_cons] at h
      obtain ⟨h1, h2⟩ := List.append_inj h (hx.2.trans hy.2.symm)
      rw [ih b (fun c hc => ha c (by simp [hc])) (fun c hc => hb c (by simp [hc])) h2]
      rw [show x = y from Prod.ext (hx.1.trans hy.1.symm) h1]

/-- Types and nodes of cells determine the cells. -/
theorem mixed_unique {npe : Nat → Nat} : ∀ a b : List Cell,
    (∀ c ∈ a, c.2.length = npe c.1) → (∀ c ∈ b, c.2.length = npe c.1) →
    a.flatMap (fun c => c.1 :: c.2) = b.flatMap (fun c => c.1 :: c.2) → a = b := by
  intro a
  induction a with
  | nil =>
    intro b _ _ h
    cases b with
    | nil => rfl
    | cons y b => simp at h
  | cons x a ih =>
    intro b ha hb h
    cases b with
    | nil => simp at h
    | cons y b =>
      simp only [List.flatMap_cons, List.cons_append, List.cons.injEq] at h
      have hl : x.2.length = y.2.length := by
        rw [ha x (by simp), hb y (by simp), h.1]
      obtain ⟨h1, h2⟩ := List.append_inj h.2 hl
      rw [ih b (fun c hc => ha c (by simp [hc])) (fun c hc => hb c (by simp [hc])) h2]
      rw [show x = y from Prod.ext h.1 h1]

theorem holds_unique {E : Elem} (hE : PosNpe E) {s : Sect} {a b : List Cell} (ha : Holds E s a)
    (hb : Holds E s b) : a = b := by
  by_cases ht : s.type = E.mixed
  · exact mixed_unique a b (fun c hc => (ha.sizes c hc).2) (fun c hc => (hb.sizes c hc).2)
      ((ha.mix ht).1.symm.trans (hb.mix ht).1)
  · obtain ⟨a1, a2⟩ := ha.plain ht
    obtain ⟨b1, b2⟩ := hb.plain ht
    refine plain_unique (t := s.type) (hE _ ht) a b ?_ ?_ (a2.symm.trans b2)
    · intro c hc; exact ⟨a1 c hc, by rw [(ha.sizes c hc).2, a1 c hc]⟩
    · intro c hc; exact ⟨b1 c hc, by rw [(hb.sizes c hc).2, b1 c hc]⟩

theorem tiled_disjoint : ∀ (l : List Sect) (i next : Nat), Tiled l i next →
    ∀ s ∈ l, next ≤ s.first ∧ i ≤ s.id := by
  intro l
  induction l with
  | nil => intro i next _ s hs; simp at hs
  | cons a l ih =>
    intro i next h s hs
    obtain ⟨h1, h2, h3, h4⟩ := h
    rcases List.mem_cons.1 hs with rfl | hs
    · exact ⟨by omega, by omega⟩
    · have := ih _ _ h4 s hs
      exact ⟨by omega, by omega⟩

end MiniCFD.Boundary
