import Verif.Lemmas.Fields

namespace MiniCFD.Fields
open MiniCFD.Spec.Fields

variable {N V : Type} [DecidableEq N]

/-- C14. After any history of calls there is at most one solution per (name, location) and one
field per name, ids follow positions, and every field has as many values as the zone has nodes or
cells. -/
theorem run_tidy (zero : V) (z z' : Zone N V) (ops : List (Op N V)) (ht : Tidy z)
    (h : run zero z ops = some z') : Tidy z' := by
  induction ops generalizing z with
  | nil => simp only [run, Option.some.injEq] at h; exact h ▸ ht
  | cons op ops ih =>
    simp only [run, Option.bind_eq_bind, Option.bind_eq_some_iff] at h
    obtain ⟨z1, h1, h2⟩ := h
    exact ih z1 (step_tidy ht h1).1 h2

/-- A zone without solutions is tidy, so histories may start from it. -/
theorem tidy_empty (nn nc : Nat) : Tidy (⟨nn, nc, []⟩ : Zone N V) :=
  ⟨by simp, by simp, by simp, by simp, by simp⟩

/-- C14. A reference to a solution stays good: it shows the same name and location after any
history of calls. -/
theorem solution_reference_stable (zero : V) (z z' : Zone N V) (ops : List (Op N V))
    (h : run zero z ops = some z') (r : Nat) (name : N) (loc : Loc)
    (hr : SolnAt z r name loc) : SolnAt z' r name loc := by
  induction ops generalizing z with
  | nil => simp only [run, Option.some.injEq] at h; exact h ▸ hr
  | cons op ops ih =>
    simp only [run, Option.bind_eq_bind, Option.bind_eq_some_iff] at h
    obtain ⟨z1, h1, h2⟩ := h
    exact ih z1 h2 (step_solnAt h1 hr)

/-- C14. A reference to a field stays good, and its data changes by the writes that go through
it and by nothing else — in particular not by adding solutions or fields, new or old. -/
theorem field_reference_stable (zero : V) (z z' : Zone N V) (ops : List (Op N V))
    (h : run zero z ops = some z') (r q : Nat) (name : N) (data : List V)
    (hr : FieldAt z r q name data) : FieldAt z' r q name (applyWrites r q ops data) := by
  induction ops generalizing z data with
  | nil => simp only [run, Option.some.injEq] at h; exact h ▸ hr
  | cons op ops ih =>
    simp only [run, Option.bind_eq_bind, Option.bind_eq_some_iff] at h
    obtain ⟨z1, h1, h2⟩ := h
    rw [applyWrites_cons]
    exact ih z1 h2 _ (step_fieldAt h1 hr)

/-- C14. `AddSolution` returns a solution of that name and location; a later call with the same
arguments, after any history, returns the same reference and changes nothing. -/
theorem addSoln_again (zero : V) (z z' : Zone N V) (ops : List (Op N V)) (ht : Tidy z) (name : N)
    (loc : Loc) (h : run zero (addSoln z name loc).1 ops = some z') :
    SolnAt z' (addSoln z name loc).2 name loc ∧
    addSoln z' name loc = (z', (addSoln z name loc).2) := by
  have h0 : SolnAt (addSoln z name loc).1 (addSoln z name loc).2 name loc := by
    unfold addSoln
    split
    · rename_i i hi
      obtain ⟨j, s, h1, h2, h3⟩ := findSoln_some hi
      rw [Nat.zero_add] at h1; subst h1
      exact ⟨s, h2, h3⟩
    · exact ⟨⟨z.solns.length + 1, name, loc, []⟩, by simp, rfl, rfl⟩
  have h1 := solution_reference_stable zero _ z' ops h _ name loc h0
  have ht1 : Tidy (addSoln z name loc).1 := (step_tidy (op := .addSoln name loc) (zero := zero) ht rfl).1
  have ht' := run_tidy zero _ z' ops ht1 h
  refine ⟨h1, ?_⟩
  obtain ⟨s, hs, hn, hl⟩ := h1
  cases hf : findSoln name loc z'.solns 0 with
  | none => exact absurd ⟨hn, hl⟩ (findSoln_none hf s (List.mem_of_getElem? hs))
  | some i =>
    obtain ⟨j, t, h2, h3, h4, h5⟩ := findSoln_some hf
    rw [Nat.zero_add] at h2; subst h2
    have := ht'.keys i _ t s h3 hs (by rw [h4, hn]) (by rw [h5, hl])
    subst this
    have e : ∀ w : Zone N V, findSoln name loc w.solns 0 = some (addSoln z name loc).2 →
        addSoln w name loc = (w, (addSoln z name loc).2) := by
      intro w hw
      generalize (addSoln z name loc).2 = r at *
      unfold addSoln; rw [hw]
    exact e z' hf

/-- C14. `AddField` on a solution at nodes or cells succeeds and returns a field of that name; a
later call with the same arguments, after any history, returns the same reference and changes
nothing. The data seen through it are those of the first call plus the writes through it. -/
theorem addField_again (zero : V) (z z1 z' : Zone N V) (ops : List (Op N V)) (ht : Tidy z)
    (r q : Nat) (name : N) (h1 : addField zero z r name = some (z1, q))
    (h : run zero z1 ops = some z') :
    (∃ data, FieldAt z1 r q name data ∧ FieldAt z' r q name (applyWrites r q ops data)) ∧
    addField zero z' r name = some (z', q) := by
  have hstep : step zero z (.addField r name) = some z1 := by simp [step, h1]
  have ht1 := (step_tidy ht hstep).1
  have ht' := run_tidy zero _ z' ops ht1 h
  simp only [addField, Option.bind_eq_bind, Option.bind_eq_some_iff] at h1
  obtain ⟨s, hs, ⟨s1, i⟩, ha, h1⟩ := h1
  simp only [Option.pure_def, Option.some.injEq, Prod.mk.injEq] at h1
  obtain ⟨rfl, rfl⟩ := h1
  have hloc : s.loc = .vertex ∨ s.loc = .cellCenter := by
    unfold addFieldTo at ha
    split at ha
    · assumption
    · simp at ha
  have hf1 : ∃ f, s1.fields[i]? = some f ∧ f.name = name := by
    rcases addFieldTo_cases ha with ⟨rfl, h2⟩ | ⟨_, rfl, rfl⟩
    · exact h2
    · exact ⟨_, List.getElem?_concat_length, rfl⟩
  have hs1 : s1.loc = s.loc ∧ s1.name = s.name := by
    rcases addFieldTo_cases ha with ⟨rfl, h2⟩ | ⟨_, _, rfl⟩ <;> exact ⟨rfl, rfl⟩
  obtain ⟨f, hf, hfn⟩ := hf1
  have hg := set_get_self (x := s1) hs
  have hfield : FieldAt { z with solns := z.solns.set r s1 } r i name f.data :=
    ⟨s1, f, hg, hf, hfn, rfl⟩
  have hfield' := field_reference_stable zero _ z' ops h r i name f.data hfield
  refine ⟨⟨f.data, hfield, hfield'⟩, ?_⟩
  have hsoln : SolnAt { z with solns := z.solns.set r s1 } r s.name s.loc :=
    ⟨s1, hg, hs1.2, hs1.1⟩
  obtain ⟨t, hts, _, htl⟩ := solution_reference_stable zero _ z' ops h r _ _ hsoln
  obtain ⟨t', g, hts', hg', hgn, _⟩ := hfield'
  rw [hts] at hts'
  simp only [Option.some.injEq] at hts'
  subst hts'
  have hfind : findField name t.fields 0 = some i := by
    cases hff : findField name t.fields 0 with
    | none => exact absurd hgn (findField_none hff g (List.mem_of_getElem? hg'))
    | some j =>
      obtain ⟨j', f', h2, h3, h4⟩ := findField_some hff
      rw [Nat.zero_add] at h2; subst h2
      rw [ht'.fieldKeys r t hts j i f' g h3 hg' (by rw [h4, hgn])]
  have hset : z'.solns.set r t = z'.solns := by
    apply List.ext_getElem?
    intro n
    by_cases e : n = r
    · subst e; rw [set_get_self hts, hts]
    · rw [List.getElem?_set_ne (fun x => e x.symm)]
  simp only [addField, hts, Option.bind_eq_bind, Option.bind_some, addFieldTo]
  rw [if_pos (by rw [htl]; exact hloc), hfind]
  simp only [Option.bind_some, Option.pure_def, hset]

/-- C14. A new field starts out zero. -/
theorem addField_new_zero (zero : V) (z z1 : Zone N V) (r q : Nat) (name : N) (s : Soln N V)
    (hs : z.solns[r]? = some s) (hnew : ∀ f ∈ s.fields, f.name ≠ name)
    (h1 : addField zero z r name = some (z1, q)) :
    FieldAt z1 r q name
      (List.replicate (if s.loc = .cellCenter then z.nCells else z.nNodes) zero) := by
  simp only [addField, hs, Option.bind_eq_bind, Option.bind_some, Option.bind_eq_some_iff] at h1
  obtain ⟨⟨s1, i⟩, ha, h1⟩ := h1
  simp only [Option.pure_def, Option.some.injEq, Prod.mk.injEq] at h1
  obtain ⟨rfl, rfl⟩ := h1
  rcases addFieldTo_cases ha with ⟨rfl, f, h2, h3⟩ | ⟨_, rfl, rfl⟩
  · exact absurd h3 (hnew f (List.mem_of_getElem? h2))
  · exact ⟨_, _, set_get_self hs, List.getElem?_concat_length, rfl, rfl⟩

/-- A history: two solutions, fields of the same name on both, one asked for twice and written in
between; the second request finds the written data. -/
def history : List (Op Nat Int) :=
  [.addSoln 7 .vertex, .addField 0 1, .write 0 0 2 5, .addSoln 7 .cellCenter, .addField 1 1,
   .addField 0 1, .addSoln 7 .vertex, .write 1 0 1 9]

example : ∃ z', run (0 : Int) ⟨3, 2, []⟩ history = some z' ∧
    FieldAt z' 0 0 1 [0, 5, 0] ∧ FieldAt z' 1 0 1 [9, 0] ∧ z'.solns.length = 2 :=
  ⟨_, rfl, ⟨_, _, rfl, rfl, rfl, rfl⟩, ⟨_, _, rfl, rfl, rfl, rfl⟩, rfl⟩

end MiniCFD.Fields
