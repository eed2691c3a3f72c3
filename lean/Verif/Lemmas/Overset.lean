import Verif.Model.Overset
import Verif.Spec.Overset
import Mathlib.Data.List.Nodup
import Mathlib.Data.List.Range
import Mathlib.Data.List.Perm.Subperm
import Mathlib.Tactic.Common

namespace MiniCFD.Overset
open MiniCFD.Spec.Overset

/-- What a scan over the candidate set `C` has added. -/
structure Added (far : Nat → Bool) (C : Nat → Prop) (found next found' next' : List Nat) : Prop where
  hfound : ∀ c, c ∈ found' ↔ c ∈ found ∨ (C c ∧ far c = false)
  hnext : ∀ c, c ∈ next' ↔ c ∈ next ∨ (C c ∧ far c = false ∧ c ∉ found)
  nodup : next.Nodup → (∀ c ∈ next, c ∈ found) → next'.Nodup
  sub : (∀ c ∈ next, c ∈ found) → ∀ c ∈ next', c ∈ found'

theorem visit_spec (far : Nat → Bool) : ∀ (js found next : List Nat),
    Added far (· ∈ js) found next (visit far js found next).1 (visit far js found next).2 := by
  intro js
  induction js with
  | nil =>
    intro found next
    exact ⟨by simp [visit], by simp [visit], fun h _ => h, fun h => h⟩
  | cons j js ih =>
    intro found next
    simp only [visit]
    split
    · rename_i hj
      have h := ih found next
      refine ⟨fun c => ?_, fun c => ?_, h.nodup, h.sub⟩
      · rw [h.hfound]; simp only [List.mem_cons]
        constructor
        · tauto
        · rintro (h1 | ⟨rfl | h1, h2⟩)
          · exact Or.inl h1
          · exact Or.inl hj
          · exact Or.inr ⟨h1, h2⟩
      · rw [h.hnext]; simp only [List.mem_cons]
        constructor
        · tauto
        · rintro (h1 | ⟨rfl | h1, h2, h3⟩)
          · exact Or.inl h1
          · exact absurd hj h3
          · exact Or.inr ⟨h1, h2, h3⟩
    · rename_i hj
      split
      · rename_i hf
        have h := ih found next
        refine ⟨fun c => ?_, fun c => ?_, h.nodup, h.sub⟩
        · rw [h.hfound]; simp only [List.mem_cons]
          constructor
          · tauto
          · rintro (h1 | ⟨rfl | h1, h2⟩)
            · exact Or.inl h1
            · rw [hf] at h2; cases h2
            · exact Or.inr ⟨h1, h2⟩
        · rw [h.hnext]; simp only [List.mem_cons]
          constructor
          · tauto
          · rintro (h1 | ⟨rfl | h1, h2, h3⟩)
            · exact Or.inl h1
            · rw [hf] at h2; cases h2
            · exact Or.inr ⟨h1, h2, h3⟩
      · rename_i hf
        have hf' : far j = false := by simpa using hf
        have h := ih (j :: found) (next ++ [j])
        refine ⟨fun c => ?_, fun c => ?_, ?_, ?_⟩
        · rw [h.hfound]; simp only [List.mem_cons]
          constructor
          · rintro ((rfl | h1) | ⟨h1, h2⟩)
            · exact Or.inr ⟨Or.inl rfl, hf'⟩
            · exact Or.inl h1
            · exact Or.inr ⟨Or.inr h1, h2⟩
          · tauto
        · rw [h.hnext]; simp only [List.mem_cons, List.mem_append, List.not_mem_nil, or_false]
          constructor
          · rintro ((h1 | rfl) | ⟨h1, h2, h3⟩)
            · exact Or.inl h1
            · exact Or.inr ⟨Or.inl rfl, hf', hj⟩
            · exact Or.inr ⟨Or.inr h1, h2, fun h4 => h3 (Or.inr h4)⟩
          · rintro (h1 | ⟨h1, h2, h3⟩)
            · exact Or.inl (Or.inl h1)
            · by_cases hcj : c = j
              · exact Or.inl (Or.inr hcj)
              · refine Or.inr ⟨h1.resolve_left hcj, h2, ?_⟩
                rintro (h4 | h4)
                · exact hcj h4
                · exact h3 h4
        · intro hn hs
          refine h.nodup ?_ ?_
          · rw [List.nodup_append]
            refine ⟨hn, by simp, ?_⟩
            intro a ha b hb
            simp only [List.mem_singleton] at hb
            subst hb
            rintro rfl
            exact hj (hs a ha)
          · intro c hc
            simp only [List.mem_append, List.mem_singleton] at hc
            rcases hc with hc | rfl
            · exact List.mem_cons_of_mem _ (hs c hc)
            · exact List.mem_cons_self
        · intro hs
          refine h.sub ?_
          intro c hc
          simp only [List.mem_append, List.mem_singleton] at hc
          rcases hc with hc | rfl
          · exact List.mem_cons_of_mem _ (hs c hc)
          · exact List.mem_cons_self

theorem layer_spec {adj : List (List Nat)} (far : Nat → Bool) : ∀ (is : List Nat)
    (found next : List Nat), (∀ i ∈ is, i < adj.length) → next.Nodup → (∀ c ∈ next, c ∈ found) →
    ∃ found' next', layer adj far is found next = some (found', next') ∧ next'.Nodup ∧
      (∀ c ∈ next', c ∈ found') ∧
      (∀ c, c ∈ found' ↔ c ∈ found ∨ ((∃ i ∈ is, Edge adj i c) ∧ far c = false)) ∧
      (∀ c, c ∈ next' ↔ c ∈ next ∨ ((∃ i ∈ is, Edge adj i c) ∧ far c = false ∧ c ∉ found)) := by
  intro is
  induction is with
  | nil =>
    intro found next _ h1 h2
    exact ⟨found, next, rfl, h1, h2, by simp, by simp⟩
  | cons i is ih =>
    intro found next hlt h1 h2
    obtain ⟨js, hjs⟩ : ∃ js, adj[i]? = some js := ⟨_, List.getElem?_eq_getElem (hlt i (by simp))⟩
    have hv := visit_spec far js found next
    obtain ⟨f', n', h3, h4, h5, h6, h7⟩ := ih (visit far js found next).1 (visit far js found next).2
      (fun k hk => hlt k (by simp [hk])) (hv.nodup h1 h2) (hv.sub h2)
    have hE : ∀ c, Edge adj i c ↔ c ∈ js := by
      intro c; unfold Edge; rw [hjs]; simp
    refine ⟨f', n', by simp [layer, hjs, h3], h4, h5, fun c => ?_, fun c => ?_⟩
    · rw [h6, hv.hfound]
      simp only [List.mem_cons, exists_eq_or_imp, hE]
      tauto
    · rw [h7, hv.hnext, hv.hfound]
      simp only [List.mem_cons, exists_eq_or_imp, hE]
      tauto

/-! ### breadth-first search -/

section
variable (adj : List (List Nat)) (far : Nat → Bool) (S : Nat → Prop)

/-- Within `k` steps. -/
def Within (k c : Nat) : Prop := ∃ m, m ≤ k ∧ Walk adj (fun j => far j = false) S m c

/-- State after `k` expansions. -/
structure BInv (k : Nat) (result curr found : List Nat) : Prop where
  nodup : result.Nodup
  res : ∀ c, c ∈ result ↔ Within adj far S k c
  fnd : ∀ c, c ∈ found ↔ c ∈ result
  cur : ∀ c, c ∈ curr ↔ (Within adj far S k c ∧
    ∀ m < k, ¬ Walk adj (fun j => far j = false) S m c)
end

variable {adj : List (List Nat)} {far : Nat → Bool} {S : Nat → Prop}

theorem walk_lt (hcl : Closed adj) (hS : ∀ c, S c → c < adj.length) {m c : Nat} {ok : Nat → Prop}
    (h : Walk adj ok S m c) : c < adj.length := by
  cases h with
  | start h => exact hS c h
  | step _ he _ =>
    obtain ⟨js, h1, h2⟩ := he
    exact hcl js (List.mem_of_getElem? h1) c h2

theorem BInv.init {start : List Nat} (hn : start.Nodup) (hS : ∀ c, S c ↔ c ∈ start) :
    BInv adj far S 0 start start start := by
  have key : ∀ c, c ∈ start ↔ Within adj far S 0 c := by
    intro c
    rw [← hS]
    constructor
    · intro h; exact ⟨0, le_refl _, .start h⟩
    · rintro ⟨m, hm, hw⟩
      obtain rfl : m = 0 := by omega
      cases hw with
      | start h => exact h
  exact ⟨hn, key, by simp, fun c => by rw [key]; simp⟩

theorem BInv.step (hcl : Closed adj) (hS : ∀ c, S c → c < adj.length) {k : Nat}
    {result curr found : List Nat} (h : BInv adj far S k result curr found) :
    ∃ found' next, layer adj far curr found [] = some (found', next) ∧
      BInv adj far S (k + 1) (result ++ next) next found' := by
  have hlt : ∀ i ∈ curr, i < adj.length := by
    intro i hi
    obtain ⟨⟨m, _, hw⟩, _⟩ := (h.cur i).1 hi
    exact walk_lt hcl hS hw
  obtain ⟨f', n', h1, h2, h3, h4, h5⟩ := layer_spec far curr found [] hlt List.nodup_nil (by simp)
  refine ⟨f', n', h1, ?_⟩
  have hnext : ∀ c, c ∈ n' ↔ ((∃ i ∈ curr, Edge adj i c) ∧ far c = false ∧ c ∉ result) := by
    intro c
    rw [h5]
    constructor
    · rintro (h6 | ⟨h6, h7, h8⟩)
      · simp at h6
      · exact ⟨h6, h7, fun h9 => h8 ((h.fnd c).2 h9)⟩
    · rintro ⟨h6, h7, h8⟩
      exact Or.inr ⟨h6, h7, fun h9 => h8 ((h.fnd c).1 h9)⟩
  have hres : ∀ c, c ∈ result ++ n' ↔ Within adj far S (k + 1) c := by
    intro c
    rw [List.mem_append, hnext]
    constructor
    · rintro (h6 | ⟨⟨i, hi, he⟩, hf, _⟩)
      · obtain ⟨m, hm, hw⟩ := (h.res c).1 h6
        exact ⟨m, by omega, hw⟩
      · obtain ⟨⟨m, hm, hw⟩, _⟩ := (h.cur i).1 hi
        exact ⟨m + 1, by omega, .step hw he hf⟩
    · rintro ⟨m, hm, hw⟩
      by_cases hc : c ∈ result
      · exact Or.inl hc
      · right
        have hmk : m = k + 1 := by
          by_contra hne
          exact hc ((h.res c).2 ⟨m, by omega, hw⟩)
        subst hmk
        cases hw with
        | @step _ i _ hwi he hf =>
          refine ⟨⟨i, (h.cur i).2 ⟨⟨k, le_refl _, hwi⟩, ?_⟩, he⟩, hf, hc⟩
          intro m' hm' hw'
          exact hc ((h.res c).2 ⟨m' + 1, by omega, .step hw' he hf⟩)
  refine ⟨?_, hres, ?_, ?_⟩
  · rw [List.nodup_append]
    refine ⟨h.nodup, h2, ?_⟩
    intro a ha b hb hab
    subst hab
    exact ((hnext a).1 hb).2.2 ha
  · intro c
    rw [h4, List.mem_append, hnext, h.fnd]
    tauto
  · intro c
    constructor
    · intro hc
      refine ⟨(hres c).1 (List.mem_append_right _ hc), ?_⟩
      intro m hm hw
      exact ((hnext c).1 hc).2.2 ((h.res c).2 ⟨m, by omega, hw⟩)
    · rintro ⟨hw, hno⟩
      have := (hres c).2 hw
      rcases List.mem_append.1 this with h6 | h6
      · obtain ⟨m, hm, hwm⟩ := (h.res c).1 h6
        exact absurd hwm (hno m (by omega))
      · exact h6

/-- An empty layer means that nothing more can be reached. -/
theorem BInv.closed {k : Nat} {result curr found : List Nat}
    (h : BInv adj far S k result curr found) (hc : curr = []) :
    ∀ m c, Walk adj (fun j => far j = false) S m c → Within adj far S k c := by
  -- nobody is at distance exactly `k`
  have hno : ∀ c, Within adj far S k c → ∃ m < k, Walk adj (fun j => far j = false) S m c := by
    intro c hw
    by_contra hcon
    push Not at hcon
    have := (h.cur c).2 ⟨hw, hcon⟩
    rw [hc] at this; simp at this
  intro m
  induction m with
  | zero => intro c hw; exact ⟨0, by omega, hw⟩
  | succ m ih =>
    intro c hw
    cases hw with
    | @step _ i _ hwi he hf =>
      obtain ⟨m', hm', hw'⟩ := hno i (ih i hwi)
      exact ⟨m' + 1, by omega, .step hw' he hf⟩

theorem BInv.length_le (hcl : Closed adj) (hS : ∀ c, S c → c < adj.length) {k : Nat}
    {result curr found : List Nat} (h : BInv adj far S k result curr found) :
    result.length ≤ adj.length := by
  have hsub : result ⊆ List.range adj.length := by
    intro c hc
    obtain ⟨m, _, hw⟩ := (h.res c).1 hc
    exact List.mem_range.2 (walk_lt hcl hS hw)
  have := (List.subperm_of_subset h.nodup hsub).length_le
  simpa using this

end MiniCFD.Overset
