import Verif.Lemmas.Overset

/-
C10, C11: the fringe and donor searches of the overset module.
-/
namespace MiniCFD.Overset
open MiniCFD.Spec.Overset

theorem outermost_spec : ∀ (adj : List (List Nat)) (nFaces : List Nat) (i : Nat),
    nFaces.length = adj.length → ∃ l, outermost adj nFaces i = some l ∧ l.Pairwise (· < ·) ∧
      ∀ c, c ∈ l ↔ i ≤ c ∧ Outermost adj nFaces (c - i) := by
  intro adj
  induction adj with
  | nil => intro nFaces i _; exact ⟨[], rfl, List.Pairwise.nil, by simp [Outermost]⟩
  | cons js adj ih =>
    intro nFaces i hl
    cases nFaces with
    | nil => simp at hl
    | cons f nFaces =>
      obtain ⟨l, h1, h2, h3⟩ := ih nFaces (i + 1) (by simpa using hl)
      have hshift : ∀ c, i + 1 ≤ c →
          (Outermost (js :: adj) (f :: nFaces) (c - i) ↔ Outermost adj nFaces (c - (i + 1))) := by
        intro c hc
        have : c - i = (c - (i + 1)) + 1 := by omega
        rw [this]; simp [Outermost]
      have hzero : Outermost (js :: adj) (f :: nFaces) 0 ↔ js.length < f := by simp [Outermost]
      refine ⟨if js.length < f then i :: l else l, by simp [outermost, h1], ?_, ?_⟩
      · split
        · refine List.pairwise_cons.2 ⟨fun a ha => ?_, h2⟩
          have := ((h3 a).1 ha).1; omega
        · exact h2
      · intro c
        by_cases hci : c = i
        · subst hci
          have hn : c ∉ l := fun h => by have := ((h3 c).1 h).1; omega
          simp only [Nat.sub_self, hzero, le_refl, true_and]
          split
          · rename_i h; simp [h]
          · rename_i h; simp [h, hn]
        · have : c ∈ (if js.length < f then i :: l else l) ↔ c ∈ l := by
            split
            · simp [hci]
            · rfl
          rw [this, h3]
          constructor
          · rintro ⟨h4, h5⟩; exact ⟨by omega, (hshift c h4).2 h5⟩
          · rintro ⟨h4, h5⟩; exact ⟨by omega, (hshift c (by omega)).1 h5⟩

/-- C10. The result has no repetition and holds exactly the cells within fewer than `nLayer`
steps of an outermost cell (one layer when `nLayer` is 0 or negative). -/
theorem fringe_exact (nLayer : Int) (adj : List (List Nat)) (nFaces : List Nat)
    (hcl : Closed adj) (hl : nFaces.length = adj.length) :
    ∃ l, fringe nLayer adj nFaces = some l ∧ l.Nodup ∧
      ∀ c, c ∈ l ↔ ∃ m : Nat, (m : Int) < max nLayer 1 ∧
        Walk adj (fun _ => True) (Outermost adj nFaces) m c := by
  obtain ⟨start, h1, h2, h3⟩ := outermost_spec adj nFaces 0 hl
  have hS : ∀ c, Outermost adj nFaces c ↔ c ∈ start := by
    intro c; rw [h3]; simp
  have hlt : ∀ c, Outermost adj nFaces c → c < adj.length := by
    rintro c ⟨js, _, h, _⟩; exact (List.getElem?_eq_some_iff.1 h).1
  have loop : ∀ (k n : Nat) (result curr found : List Nat),
      BInv adj (fun _ => false) (Outermost adj nFaces) n result curr found →
      ∃ l, fringeLoop adj k result curr found = some l ∧ l.Nodup ∧
        ∀ c, c ∈ l ↔ Within adj (fun _ => false) (Outermost adj nFaces) (n + k) c := by
    intro k
    induction k with
    | zero => intro n result curr found h; exact ⟨result, rfl, h.nodup, h.res⟩
    | succ k ih =>
      intro n result curr found h
      simp only [fringeLoop]
      by_cases hc : curr = []
      · rw [if_pos hc]
        refine ⟨result, rfl, h.nodup, fun c => ?_⟩
        rw [h.res]
        constructor
        · rintro ⟨m, hm, hw⟩; exact ⟨m, by omega, hw⟩
        · rintro ⟨m, _, hw⟩; exact h.closed hc m c hw
      · rw [if_neg hc]
        obtain ⟨f', n', h4, h5⟩ := h.step hcl hlt
        obtain ⟨l, h6, h7, h8⟩ := ih (n + 1) _ _ _ h5
        refine ⟨l, by simp [h4, h6], h7, fun c => ?_⟩
        rw [h8, show n + 1 + k = n + (k + 1) by omega]
  have h0 : BInv adj (fun _ => false) (Outermost adj nFaces) 0 start start start :=
    BInv.init (h2.imp (fun h => by omega)) hS
  obtain ⟨l, h4, h5, h6⟩ := loop (nLayer - 1).toNat 0 _ _ _ h0
  refine ⟨l, by simp only [fringe, h1, Option.bind_eq_bind, Option.bind_some, h4], h5, fun c => ?_⟩
  rw [h6]
  have hw : ∀ m, Walk adj (fun _ => false = false) (Outermost adj nFaces) m c ↔
      Walk adj (fun _ => True) (Outermost adj nFaces) m c := by
    intro m; simp
  constructor
  · rintro ⟨m, hm, h⟩; exact ⟨m, by omega, (hw m).1 h⟩
  · rintro ⟨m, hm, h⟩; exact ⟨m, by omega, (hw m).2 h⟩

/-- C11. For every background graph and every predicate `far`, the search stops (the fuel is
never used up) and returns, without repetition, exactly the cells reachable from the start cells
through cells inside the ball. -/
theorem donors_exact (adj : List (List Nat)) (far : Nat → Bool) (start : List Nat)
    (hcl : Closed adj) (hn : start.Nodup) (hlt : ∀ c ∈ start, c < adj.length) :
    ∃ l, (∀ fuel, adj.length + 1 ≤ fuel → donors adj far fuel start = some l) ∧ l.Nodup ∧
      ∀ c, c ∈ l ↔ ∃ m, Walk adj (fun j => far j = false) (· ∈ start) m c := by
  have loop : ∀ (k fuel n : Nat) (result curr found : List Nat),
      BInv adj far (· ∈ start) n result curr found →
      adj.length - result.length + (if curr = [] then 0 else 1) ≤ k →
      ∃ l, (∀ fuel, k + 1 ≤ fuel → donorLoop adj far fuel result curr found = some l) ∧ l.Nodup ∧
        ∀ c, c ∈ l ↔ ∃ m, Walk adj (fun j => far j = false) (· ∈ start) m c := by
    intro k
    induction k with
    | zero =>
      intro _ n result curr found h hk
      have hc : curr = [] := by by_contra hc; rw [if_neg hc] at hk; omega
      refine ⟨result, ?_, h.nodup, fun c => ?_⟩
      · intro fuel hf
        obtain ⟨fuel, rfl⟩ : ∃ f, fuel = f + 1 := ⟨fuel - 1, by omega⟩
        simp [donorLoop, hc]
      · rw [h.res]
        constructor
        · rintro ⟨m, _, hw⟩; exact ⟨m, hw⟩
        · rintro ⟨m, hw⟩; exact h.closed hc m c hw
    | succ k ih =>
      intro _ n result curr found h hk
      by_cases hc : curr = []
      · refine ⟨result, ?_, h.nodup, fun c => ?_⟩
        · intro fuel hf
          obtain ⟨fuel, rfl⟩ : ∃ f, fuel = f + 1 := ⟨fuel - 1, by omega⟩
          simp [donorLoop, hc]
        · rw [h.res]
          constructor
          · rintro ⟨m, _, hw⟩; exact ⟨m, hw⟩
          · rintro ⟨m, hw⟩; exact h.closed hc m c hw
      · obtain ⟨f', next, h4, h5⟩ := h.step hcl hlt
        have hlen := h5.length_le hcl hlt
        rw [List.length_append] at hlen
        rw [if_neg hc] at hk
        obtain ⟨l, h6, h7, h8⟩ := ih 0 (n + 1) _ _ _ h5 (by
          rw [List.length_append]
          by_cases hnx : next = []
          · rw [if_pos hnx, hnx]; simp; omega
          · rw [if_neg hnx]
            have : next.length ≠ 0 := fun h => hnx (List.length_eq_zero_iff.1 h)
            omega)
        refine ⟨l, ?_, h7, h8⟩
        intro fuel hf
        obtain ⟨fuel, rfl⟩ : ∃ f, fuel = f + 1 := ⟨fuel - 1, by omega⟩
        simp [donorLoop, hc, h4, h6 fuel (by omega)]
  have h0 : BInv adj far (· ∈ start) 0 start start start := BInv.init hn (fun _ => Iff.rfl)
  have hl := h0.length_le hcl hlt
  obtain ⟨l, h1, h2, h3⟩ := loop (adj.length - start.length + (if start = [] then 0 else 1)) 0 0
    _ _ _ h0 (le_refl _)
  refine ⟨l, fun fuel hf => h1 fuel ?_, h2, h3⟩
  split
  · omega
  · rename_i hne
    have : start.length ≠ 0 := fun h => hne (List.length_eq_zero_iff.1 h)
    omega

/-- A strip of five quadrangles, the last one also open at its end: two layers. -/
example : Closed [[1], [0, 2], [1, 3], [2, 4], [3]] ∧
    fringe 2 [[1], [0, 2], [1, 3], [2, 4], [3]] [2, 2, 2, 2, 2] = some [0, 4, 1, 3] := by
  refine ⟨by unfold Closed; decide, by decide⟩

/-- The ball holds cells 0, 1, 2 and 4: cell 4 is not reached, its neighbour 3 is outside. -/
example : donors [[1], [0, 2], [1, 3], [2, 4], [3]] (fun j => j == 3) 6 [0] = some [0, 1, 2] := by
  decide

end MiniCFD.Overset
