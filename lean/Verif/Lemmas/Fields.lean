import Verif.Spec.Fields
import Mathlib.Tactic.Common

namespace MiniCFD.Fields
open MiniCFD.Spec.Fields

variable {N V : Type} [DecidableEq N]

theorem findSoln_some {name : N} {loc : Loc} {l : List (Soln N V)} {k i : Nat}
    (h : findSoln name loc l k = some i) :
    ∃ j s, i = k + j ∧ l[j]? = some s ∧ s.name = name ∧ s.loc = loc := by
  induction l generalizing k with
  | nil => simp [findSoln] at h
  | cons s ss ih =>
    simp only [findSoln] at h
    split at h
    · rename_i hc
      simp only [Option.some.injEq] at h
      exact ⟨0, s, by omega, rfl, hc⟩
    · obtain ⟨j, t, h1, h2, h3⟩ := ih h
      exact ⟨j + 1, t, by omega, by simpa using h2, h3⟩

theorem findSoln_none {name : N} {loc : Loc} {l : List (Soln N V)} {k : Nat}
    (h : findSoln name loc l k = none) : ∀ s ∈ l, ¬ (s.name = name ∧ s.loc = loc) := by
  induction l generalizing k with
  | nil => simp
  | cons s ss ih =>
    simp only [findSoln] at h
    split at h
    · simp at h
    · rename_i hc
      intro t ht
      rcases List.mem_cons.1 ht with rfl | ht
      · exact hc
      · exact ih h t ht

theorem findField_some {name : N} {l : List (Field N V)} {k i : Nat}
    (h : findField name l k = some i) :
    ∃ j s, i = k + j ∧ l[j]? = some s ∧ s.name = name := by
  induction l generalizing k with
  | nil => simp [findField] at h
  | cons s ss ih =>
    simp only [findField] at h
    split at h
    · rename_i hc
      simp only [Option.some.injEq] at h
      exact ⟨0, s, by omega, rfl, hc⟩
    · obtain ⟨j, t, h1, h2, h3⟩ := ih h
      exact ⟨j + 1, t, by omega, by simpa using h2, h3⟩

theorem findField_none {name : N} {l : List (Field N V)} {k : Nat}
    (h : findField name l k = none) : ∀ s ∈ l, s.name ≠ name := by
  induction l generalizing k with
  | nil => simp
  | cons s ss ih =>
    simp only [findField] at h
    split at h
    · simp at h
    · rename_i hc
      intro t ht
      rcases List.mem_cons.1 ht with rfl | ht
      · exact hc
      · exact ih h t ht

theorem snoc_get {α : Type} {l : List α} {x a : α} {i : Nat} (h : (l ++ [x])[i]? = some a) :
    l[i]? = some a ∨ (i = l.length ∧ a = x) := by
  by_cases hi : i < l.length
  · rw [List.getElem?_append_left hi] at h; exact Or.inl h
  · rw [List.getElem?_append_right (by omega)] at h
    obtain ⟨h1, h2⟩ := List.getElem?_eq_some_iff.1 h
    simp only [List.length_singleton] at h1
    refine Or.inr ⟨by omega, ?_⟩
    have : i - l.length = 0 := by omega
    simp only [this, List.getElem_cons_zero] at h2
    exact h2.symm

theorem snoc_get_old {α : Type} {l : List α} {x a : α} {i : Nat} (h : l[i]? = some a) :
    (l ++ [x])[i]? = some a := by
  obtain ⟨h1, _⟩ := List.getElem?_eq_some_iff.1 h
  rw [List.getElem?_append_left h1]; exact h

theorem set_get {α : Type} {l : List α} {x a : α} {h i : Nat} (hg : (l.set h x)[i]? = some a) :
    (i = h ∧ a = x) ∨ (i ≠ h ∧ l[i]? = some a) := by
  rw [List.getElem?_set] at hg
  split at hg
  · rename_i e
    split at hg
    · simp only [Option.some.injEq] at hg
      exact Or.inl ⟨e.symm, hg.symm⟩
    · simp at hg
  · rename_i e
    exact Or.inr ⟨fun e' => e e'.symm, hg⟩

theorem set_get_self {α : Type} {l : List α} {x a : α} {h : Nat} (hg : l[h]? = some a) :
    (l.set h x)[h]? = some x := by
  obtain ⟨h1, _⟩ := List.getElem?_eq_some_iff.1 hg
  rw [List.getElem?_set_self h1]

/-- Replacing a solution by one with the same key keeps what concerns solutions. -/
theorem tidy_set {z : Zone N V} (ht : Tidy z) {h : Nat} {s s' : Soln N V}
    (hs : z.solns[h]? = some s) (hid : s'.id = s.id) (hn : s'.name = s.name) (hl : s'.loc = s.loc)
    (hk : ∀ (i j : Nat) a b, s'.fields[i]? = some a → s'.fields[j]? = some b → a.name = b.name → i = j)
    (hi : ∀ (i : Nat) a, s'.fields[i]? = some a → a.id = i + 1)
    (hz : ∀ (i : Nat) a, s'.fields[i]? = some a →
      a.data.length = if s.loc = .cellCenter then z.nCells else z.nNodes) :
    Tidy { z with solns := z.solns.set h s' } := by
  have key : ∀ (i : Nat) a, (z.solns.set h s')[i]? = some a →
      ∃ b, z.solns[i]? = some b ∧ a.id = b.id ∧ a.name = b.name ∧ a.loc = b.loc := by
    intro i a ha
    rcases set_get ha with ⟨rfl, rfl⟩ | ⟨_, h2⟩
    · exact ⟨s, hs, hid, hn, hl⟩
    · exact ⟨a, h2, rfl, rfl, rfl⟩
  refine ⟨?_, ?_, ?_, ?_, ?_⟩
  · intro i j a b ha hb e1 e2
    obtain ⟨a', h1, _, h2, h3⟩ := key i a ha
    obtain ⟨b', h4, _, h5, h6⟩ := key j b hb
    exact ht.keys i j a' b' h1 h4 (by rw [← h2, ← h5, e1]) (by rw [← h3, ← h6, e2])
  · intro i a ha
    obtain ⟨a', h1, h2, _⟩ := key i a ha
    rw [h2]; exact ht.ids i a' h1
  · intro i a ha
    rcases set_get ha with ⟨rfl, rfl⟩ | ⟨_, h2⟩
    · exact hk
    · exact ht.fieldKeys i a h2
  · intro i a ha
    rcases set_get ha with ⟨rfl, rfl⟩ | ⟨_, h2⟩
    · exact hi
    · exact ht.fieldIds i a h2
  · intro i a ha
    rcases set_get ha with ⟨rfl, rfl⟩ | ⟨_, h2⟩
    · rw [hl]; exact hz
    · exact ht.sizes i a h2

theorem addFieldTo_cases {zero : V} {nn nc : Nat} {s s' : Soln N V} {name : N} {i : Nat}
    (h : addFieldTo zero nn nc s name = some (s', i)) :
    (s' = s ∧ ∃ f, s.fields[i]? = some f ∧ f.name = name) ∨
    ((∀ f ∈ s.fields, f.name ≠ name) ∧ i = s.fields.length ∧
      s' = { s with fields := s.fields ++ [⟨s.fields.length + 1, name,
        List.replicate (if s.loc = .cellCenter then nc else nn) zero⟩] }) := by
  unfold addFieldTo at h
  split at h
  · split at h
    · rename_i k hk
      simp only [Option.some.injEq, Prod.mk.injEq] at h
      obtain ⟨rfl, rfl⟩ := h
      obtain ⟨j, f, h1, h2, h3⟩ := findField_some hk
      rw [Nat.zero_add] at h1; subst h1
      exact Or.inl ⟨rfl, f, h2, h3⟩
    · rename_i hk
      simp only [Option.some.injEq, Prod.mk.injEq] at h
      obtain ⟨rfl, rfl⟩ := h
      exact Or.inr ⟨findField_none hk, rfl, rfl⟩
  · simp at h

theorem step_tidy {zero : V} {z z' : Zone N V} {op : Op N V} (ht : Tidy z)
    (h : step zero z op = some z') : Tidy z' ∧ z'.nNodes = z.nNodes ∧ z'.nCells = z.nCells := by
  cases op with
  | addSoln name loc =>
    simp only [step, Option.some.injEq] at h
    subst h
    unfold addSoln
    split
    · exact ⟨ht, rfl, rfl⟩
    · rename_i hf
      have hnew := findSoln_none hf
      refine ⟨⟨?_, ?_, ?_, ?_, ?_⟩, rfl, rfl⟩
      · intro i j a b ha hb e1 e2
        rcases snoc_get ha with h1 | ⟨h1, rfl⟩ <;> rcases snoc_get hb with h2 | ⟨h2, rfl⟩
        · exact ht.keys i j a b h1 h2 e1 e2
        · exact absurd ⟨e1, e2⟩ (hnew a (List.mem_of_getElem? h1))
        · exact absurd ⟨e1.symm, e2.symm⟩ (hnew b (List.mem_of_getElem? h2))
        · omega
      · intro i a ha
        rcases snoc_get ha with h1 | ⟨h1, rfl⟩
        · exact ht.ids i a h1
        · simp [h1]
      · intro i a ha
        rcases snoc_get ha with h1 | ⟨h1, rfl⟩
        · exact ht.fieldKeys i a h1
        · intro i j a b hx; simp at hx
      · intro i a ha
        rcases snoc_get ha with h1 | ⟨h1, rfl⟩
        · exact ht.fieldIds i a h1
        · intro i a hx; simp at hx
      · intro i a ha
        rcases snoc_get ha with h1 | ⟨h1, rfl⟩
        · exact ht.sizes i a h1
        · intro i a hx; simp at hx
  | addField h0 name =>
    simp only [step, addField, Option.bind_eq_bind, Option.map_eq_some_iff] at h
    obtain ⟨⟨z1, i⟩, h, rfl⟩ := h
    simp only [Option.bind_eq_some_iff] at h
    obtain ⟨s, hs, ⟨s', i'⟩, ha, h⟩ := h
    simp only [Option.pure_def, Option.some.injEq, Prod.mk.injEq] at h
    obtain ⟨rfl, rfl⟩ := h
    refine ⟨?_, rfl, rfl⟩
    rcases addFieldTo_cases ha with ⟨rfl, _⟩ | ⟨hnew, rfl, rfl⟩
    · exact tidy_set ht hs rfl rfl rfl (ht.fieldKeys h0 s' hs) (ht.fieldIds h0 s' hs)
        (ht.sizes h0 s' hs)
    · refine tidy_set ht hs rfl rfl rfl ?_ ?_ ?_
      · intro i j a b ha hb e
        rcases snoc_get ha with h1 | ⟨h1, rfl⟩ <;> rcases snoc_get hb with h2 | ⟨h2, rfl⟩
        · exact ht.fieldKeys h0 s hs i j a b h1 h2 e
        · exact absurd e (hnew a (List.mem_of_getElem? h1))
        · exact absurd e.symm (hnew b (List.mem_of_getElem? h2))
        · omega
      · intro i a ha
        rcases snoc_get ha with h1 | ⟨h1, rfl⟩
        · exact ht.fieldIds h0 s hs i a h1
        · simp [h1]
      · intro i a ha
        rcases snoc_get ha with h1 | ⟨h1, rfl⟩
        · exact ht.sizes h0 s hs i a h1
        · simp
  | write h0 k i v =>
    simp only [step, write, Option.bind_eq_bind, Option.bind_eq_some_iff] at h
    obtain ⟨s, hs, f, hf, h⟩ := h
    split at h
    · simp only [Option.some.injEq] at h
      subst h
      refine ⟨tidy_set ht hs rfl rfl rfl ?_ ?_ ?_, rfl, rfl⟩
      · have key : ∀ (j : Nat) a, (s.fields.set k { f with data := f.data.set (i - 1) v })[j]? =
            some a → ∃ b, s.fields[j]? = some b ∧ a.name = b.name := by
          intro j a ha
          rcases set_get ha with ⟨rfl, rfl⟩ | ⟨_, h2⟩
          · exact ⟨f, hf, rfl⟩
          · exact ⟨a, h2, rfl⟩
        intro j j' a b ha hb e
        obtain ⟨a', h1, h2⟩ := key j a ha
        obtain ⟨b', h3, h4⟩ := key j' b hb
        exact ht.fieldKeys h0 s hs j j' a' b' h1 h3 (by rw [← h2, ← h4, e])
      · intro j a ha
        rcases set_get ha with ⟨rfl, rfl⟩ | ⟨_, h2⟩
        · exact ht.fieldIds h0 s hs _ f hf
        · exact ht.fieldIds h0 s hs j a h2
      · intro j a ha
        rcases set_get ha with ⟨rfl, rfl⟩ | ⟨_, h2⟩
        · simpa using ht.sizes h0 s hs _ f hf
        · exact ht.sizes h0 s hs j a h2
    · simp at h

theorem step_solnAt {zero : V} {z z' : Zone N V} {op : Op N V} (h : step zero z op = some z')
    {r : Nat} {name : N} {loc : Loc} (hr : SolnAt z r name loc) : SolnAt z' r name loc := by
  obtain ⟨s, hs, hn, hl⟩ := hr
  cases op with
  | addSoln name' loc' =>
    simp only [step, Option.some.injEq] at h
    subst h
    unfold addSoln
    split
    · exact ⟨s, hs, hn, hl⟩
    · exact ⟨s, snoc_get_old hs, hn, hl⟩
  | addField h0 name' =>
    simp only [step, addField, Option.bind_eq_bind, Option.map_eq_some_iff] at h
    obtain ⟨⟨z1, i⟩, h, rfl⟩ := h
    simp only [Option.bind_eq_some_iff] at h
    obtain ⟨t, ht, ⟨t', i'⟩, ha, h⟩ := h
    simp only [Option.pure_def, Option.some.injEq, Prod.mk.injEq] at h
    obtain ⟨rfl, rfl⟩ := h
    by_cases e : r = h0
    · subst e
      rw [hs] at ht; simp only [Option.some.injEq] at ht; subst ht
      refine ⟨t', set_get_self hs, ?_⟩
      rcases addFieldTo_cases ha with ⟨rfl, _⟩ | ⟨_, _, rfl⟩
      · exact ⟨hn, hl⟩
      · exact ⟨hn, hl⟩
    · exact ⟨s, by simp only; rw [List.getElem?_set_ne (fun x => e x.symm)]; exact hs, hn, hl⟩
  | write h0 k i v =>
    simp only [step, write, Option.bind_eq_bind, Option.bind_eq_some_iff] at h
    obtain ⟨t, ht, f, hf, h⟩ := h
    split at h
    · simp only [Option.some.injEq] at h
      subst h
      by_cases e : r = h0
      · subst e
        rw [hs] at ht; simp only [Option.some.injEq] at ht; subst ht
        exact ⟨_, set_get_self hs, hn, hl⟩
      · exact ⟨s, by simp only; rw [List.getElem?_set_ne (fun x => e x.symm)]; exact hs, hn, hl⟩
    · simp at h

theorem step_fieldAt {zero : V} {z z' : Zone N V} {op : Op N V} (h : step zero z op = some z')
    {r q : Nat} {name : N} {data : List V} (hr : FieldAt z r q name data) :
    FieldAt z' r q name (applyWrites r q [op] data) := by
  obtain ⟨s, g, hs, hg, hn, hd⟩ := hr
  cases op with
  | addSoln name' loc' =>
    simp only [step, Option.some.injEq] at h
    subst h
    unfold addSoln
    split
    · exact ⟨s, g, hs, hg, hn, hd⟩
    · exact ⟨s, g, snoc_get_old hs, hg, hn, hd⟩
  | addField h0 name' =>
    simp only [step, addField, Option.bind_eq_bind, Option.map_eq_some_iff] at h
    obtain ⟨⟨z1, i⟩, h, rfl⟩ := h
    simp only [Option.bind_eq_some_iff] at h
    obtain ⟨t, ht, ⟨t', i'⟩, ha, h⟩ := h
    simp only [Option.pure_def, Option.some.injEq, Prod.mk.injEq] at h
    obtain ⟨rfl, rfl⟩ := h
    by_cases e : r = h0
    · subst e
      rw [hs] at ht; simp only [Option.some.injEq] at ht; subst ht
      rcases addFieldTo_cases ha with ⟨rfl, _⟩ | ⟨_, _, rfl⟩
      · exact ⟨t', g, set_get_self hs, hg, hn, hd⟩
      · exact ⟨_, g, set_get_self hs, snoc_get_old hg, hn, hd⟩
    · exact ⟨s, g, by simp only; rw [List.getElem?_set_ne (fun x => e x.symm)]; exact hs, hg, hn, hd⟩
  | write h0 k i v =>
    simp only [step, write, Option.bind_eq_bind, Option.bind_eq_some_iff] at h
    obtain ⟨t, ht, f, hf, h⟩ := h
    split at h
    · simp only [Option.some.injEq] at h
      subst h
      simp only [applyWrites]
      by_cases e : r = h0
      · subst e
        rw [hs] at ht; simp only [Option.some.injEq] at ht; subst ht
        by_cases e2 : q = k
        · subst e2
          rw [hg] at hf; simp only [Option.some.injEq] at hf; subst hf
          rw [if_pos ⟨rfl, rfl⟩]
          exact ⟨_, _, set_get_self hs, set_get_self hg, hn, by simp [hd]⟩
        · rw [if_neg (fun x => e2 x.2.symm)]
          exact ⟨_, g, set_get_self hs,
            by simp only; rw [List.getElem?_set_ne (fun x => e2 x.symm)]; exact hg, hn, hd⟩
      · rw [if_neg (fun x => e x.1.symm)]
        exact ⟨s, g, by simp only; rw [List.getElem?_set_ne (fun x => e x.symm)]; exact hs,
          hg, hn, hd⟩
    · simp at h

theorem applyWrites_cons (r q : Nat) (op : Op N V) (ops : List (Op N V)) (d : List V) :
    applyWrites r q (op :: ops) d = applyWrites r q ops (applyWrites r q [op] d) := by
  cases op <;> rfl

end MiniCFD.Fields
