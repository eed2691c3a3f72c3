import Verif.Model.GhostSetup
import Verif.Props.Adjacency
import Verif.Lemmas.Shuffle

/-
C52: after the start-up exchange every rank knows, for every cell it owns or borders on, the
same nodes and coordinates as the serial mesh; no lookup fails.
-/
namespace MiniCFD.GhostSetup
open MiniCFD.Adjacency MiniCFD.Spec.Adjacency MiniCFD.Shuffle

variable {α : Type}

theorem fillNodes_spec {f : Nat → Option (α × α × α)} {ns : List Nat} {cs : List (α × α × α)}
    (h : List.Forall₂ (fun n c => f n = some c) ns cs) (m : Nat → Option (α × α × α)) :
    ∃ m', fillNodes ns (cs.flatMap (fun c => [c.1, c.2.1, c.2.2])) m = some m' ∧
      ∀ k, m' k = if k ∈ ns then f k else m k := by
  induction h generalizing m with
  | nil => exact ⟨m, rfl, by simp⟩
  | @cons n c ns cs hn _ ih =>
    obtain ⟨m', h1, h2⟩ := ih (fun k => if k = n then some (c.1, c.2.1, c.2.2) else m k)
    refine ⟨m', by simpa [fillNodes] using h1, fun k => ?_⟩
    rw [h2 k]
    by_cases hk : k ∈ ns
    · simp [hk]
    · by_cases hkn : k = n
      · subst hkn; simp [hk, hn]
      · simp [hk, hkn]

theorem fillAllNodes_spec {inp : Input} {coords : List (α × α × α)} {o : Out} {p : Nat}
    (hsame : ∀ q, o.sendNodes q p = o.adjNodes p q)
    (hown : ∀ q, ∀ n ∈ o.adjNodes p q, inp.nodeParts[n]? = some q ∧ n < coords.length) :
    ∀ (qs : List Nat) (m : Nat → Option (α × α × α)),
    ∃ m', fillAllNodes inp coords o p qs m = some m' ∧
      ∀ k, m' k = if (∃ q ∈ qs, k ∈ o.adjNodes p q) then coords[k]? else m k := by
  intro qs
  induction qs with
  | nil => intro m; exact ⟨m, rfl, by simp⟩
  | cons q qs ih =>
    intro m
    have hloc : ∀ n ∈ o.adjNodes p q, localCoord inp coords q n = coords[n]? := by
      intro n hn; simp [localCoord, (hown q n hn).1]
    obtain ⟨cs, hcs⟩ := mapM_isSome (f := localCoord inp coords q) (l := o.adjNodes p q) (by
      intro n hn; rw [hloc n hn]; simp [(hown q n hn).2])
    obtain ⟨m1, h1, h2⟩ := fillNodes_spec (mapM_eq_some.1 hcs) m
    obtain ⟨m2, h3, h4⟩ := ih m1
    refine ⟨m2, ?_, fun k => ?_⟩
    · simp [fillAllNodes, sendNodeBuf, hsame, hcs, h1, h3]
    · rw [h4 k, h2 k]
      simp only [List.mem_cons, exists_eq_or_imp]
      by_cases hk : ∃ q ∈ qs, k ∈ o.adjNodes p q
      · simp [hk]
      · by_cases hq : k ∈ o.adjNodes p q
        · simp [hk, hq, hloc k hq]
        · simp [hk, hq]

/-- Every rank finds the coordinates of every node of every cell it owns or borders on, and
they are the ones in the mesh. -/
theorem getCoord_complete {inp : Input} (hv : Valid inp) (coords : List (α × α × α))
    (hc : ∀ ns ∈ inp.cellNodes, ∀ n ∈ ns, n < coords.length) :
    ∃ o, run inp = some o ∧ ∀ p, ∃ ghost, ghostNodes inp coords o p = some ghost ∧
      ∀ n, NeedsNode inp p n → ∃ c, coords[n]? = some c ∧
        getCoord inp coords ghost p n = some c := by
  obtain ⟨o, h1, h2⟩ := nodeLists_agree hv
  have hlt : ∀ {p n}, NeedsNode inp p n → n < coords.length := by
    rintro p n ⟨c, _, ns, h3, h4⟩
    exact hc ns (List.mem_of_getElem? h3) n h4
  refine ⟨o, h1, fun p => ?_⟩
  obtain ⟨g, h3, h4⟩ := fillAllNodes_spec (inp := inp) (coords := coords) (o := o) (p := p)
    (fun q => (h2 p q).1) (by
      intro q n hn
      obtain ⟨h5, _, h6⟩ := ((h2 p q).2.2 n).1 hn
      exact ⟨h6, hlt h5⟩) (List.range inp.nParts) (fun _ => none)
  refine ⟨g, h3, fun n hn => ?_⟩
  have hco : coords[n]? = some (coords[n]'(hlt hn)) := List.getElem?_eq_getElem _
  refine ⟨_, hco, ?_⟩
  obtain ⟨q, hq, hqp⟩ : ∃ q, inp.nodeParts[n]? = some q ∧ q < inp.nParts := by
    obtain ⟨c, _, ns, h5, h6⟩ := hn
    exact hv.owner ns (List.mem_of_getElem? h5) n h6
  unfold getCoord localCoord
  by_cases hqe : q = p
  · subst hqe; simp [hq, hco]
  · have : ¬ inp.nodeParts[n]? = some p := by rw [hq]; simpa using hqe
    rw [if_neg this]
    simp only
    rw [h4 n, if_pos, hco]
    refine ⟨q, by simpa using hqp, ((h2 p q).2.2 n).2 ⟨hn, fun h => hqe h.symm, hq⟩⟩

theorem fillCells_spec {f : Nat → Option (Nat × List Nat)} {npe : Nat → Option Nat}
    {ns : List Nat} {cs : List (Nat × List Nat)}
    (h : List.Forall₂ (fun n c => f n = some c) ns cs)
    (hnpe : ∀ n c, f n = some c → npe n = some c.2.length) (m : Nat → Option (Nat × List Nat)) :
    ∃ m', fillCells npe ns (cs.flatMap (fun c => c.1 :: c.2)) m = some m' ∧
      ∀ k, m' k = if k ∈ ns then f k else m k := by
  induction h generalizing m with
  | nil => exact ⟨m, rfl, by simp⟩
  | @cons n c ns cs hn _ ih =>
    obtain ⟨m', h1, h2⟩ := ih (fun k => if k = n then some c else m k)
    refine ⟨m', ?_, fun k => ?_⟩
    · simp only [List.flatMap_cons, List.cons_append, fillCells, hnpe n c hn, Option.bind_eq_bind,
        Option.bind_some]
      rw [if_pos (by simp)]
      simpa using h1
    rw [h2 k]
    by_cases hk : k ∈ ns
    · simp [hk]
    · by_cases hkn : k = n
      · subst hkn; simp [hk, hn]
      · simp [hk, hkn]

/-- Every rank's ghost cells are the cells it borders on, with the zone and the nodes (in
order) they have in the mesh. -/
theorem ghostCells_complete {inp : Input} (hv : Valid inp) (hs : Symmetric inp)
    (zones : List Nat) (hz : zones.length = inp.cellNodes.length) :
    ∃ o, run inp = some o ∧ ∀ p, ∃ ghost, ghostCells inp zones o p = some ghost ∧
      (∀ c, (∃ i, InPart inp i p ∧ Adjacent inp i c) → ¬ InPart inp c p →
        ∃ z ns, zones[c]? = some z ∧ inp.cellNodes[c]? = some ns ∧ ghost c = some (z, ns)) ∧
      (∀ c, (ghost c).isSome → (∃ i, InPart inp i p ∧ Adjacent inp i c) ∧ ¬ InPart inp c p) := by
  obtain ⟨o, h1, h2⟩ := cellLists_agree hv hs
  refine ⟨o, h1, fun p => ?_⟩
  have hlt : ∀ {c p}, InPart inp c p → c < inp.cellNodes.length := by
    intro c p h
    rw [← hv.lenParts]
    exact (List.getElem?_eq_some_iff.1 h).1
  have hloc : ∀ q c, InPart inp c q → ∃ z ns, zones[c]? = some z ∧ inp.cellNodes[c]? = some ns ∧
      localCell inp zones q c = some (z, ns) := by
    intro q c h
    have hl := hlt h
    refine ⟨zones[c], inp.cellNodes[c], by simp [hz, hl], by simp [hl], ?_⟩
    unfold InPart at h
    simp [localCell, h, hz, hl]
  have loop : ∀ (qs : List Nat) (m : Nat → Option (Nat × List Nat)),
      ∃ m', fillAllCells inp zones o p qs m = some m' ∧
      ∀ k, (∀ q ∈ qs, Border inp q p k →
          ∃ z ns, zones[k]? = some z ∧ inp.cellNodes[k]? = some ns ∧ m' k = some (z, ns)) ∧
        ((∀ q ∈ qs, ¬ Border inp q p k) → m' k = m k) := by
    intro qs
    induction qs with
    | nil => intro m; exact ⟨m, rfl, by simp⟩
    | cons q qs ih =>
      intro m
      have hb : ∀ c, c ∈ sendCells o q p ↔ Border inp q p c := (h2 q p).2.2
      obtain ⟨cs, hcs⟩ := mapM_isSome (f := localCell inp zones q) (l := sendCells o q p) (by
        intro c hc
        obtain ⟨z, ns, _, _, h⟩ := hloc q c ((hb c).1 hc).1
        rw [h]; rfl)
      obtain ⟨m1, h3, h4⟩ := fillCells_spec (npe := fun c => (inp.cellNodes[c]?).map List.length)
        (mapM_eq_some.1 hcs) (by
          intro n c h
          unfold localCell at h
          split at h
          · simp only [Option.bind_eq_bind, Option.bind_eq_some_iff, Option.pure_def,
              Option.some.injEq] at h
            obtain ⟨z, _, ns, h6, rfl⟩ := h
            simp [h6]
          · exact absurd h (by simp)) m
      obtain ⟨m2, h5, h6⟩ := ih m1
      refine ⟨m2, ?_, fun k => ⟨?_, ?_⟩⟩
      · simp only [fillAllCells, sendCellBuf, hcs, Option.bind_eq_bind, Option.bind_some,
          Option.pure_def, ← (h2 q p).1, h3, h5]
      · intro q' hq' hbk
        by_cases hex : ∃ q ∈ qs, Border inp q p k
        · obtain ⟨q'', h7, h8⟩ := hex
          exact (h6 k).1 q'' h7 h8
        · have hqq : q' = q := by
            rcases List.mem_cons.1 hq' with h | h
            · exact h
            · exact absurd ⟨q', h, hbk⟩ hex
          subst hqq
          obtain ⟨z, ns, h7, h8, h9⟩ := hloc q' k hbk.1
          refine ⟨z, ns, h7, h8, ?_⟩
          rw [(h6 k).2 (fun q hq hb => hex ⟨q, hq, hb⟩), h4 k, if_pos ((hb k).2 hbk), h9]
      · intro hno
        rw [(h6 k).2 (fun q hq => hno q (by simp [hq])), h4 k, if_neg]
        rw [hb]; exact hno q (by simp)
  obtain ⟨g, h3, h4⟩ := loop (List.range inp.nParts) (fun _ => none)
  refine ⟨g, h3, ?_, ?_⟩
  · rintro c ⟨i, h5, h6⟩ h7
    have h8 : Adjacent inp c i := hs _ _ h6
    have hl : c < inp.cellParts.length := by
      obtain ⟨js, h9, _⟩ := h8
      rw [hv.lenParts, ← hv.lenAdj]; exact (List.getElem?_eq_some_iff.1 h9).1
    obtain ⟨q, hq⟩ : ∃ q, inp.cellParts[c]? = some q := ⟨_, List.getElem?_eq_getElem hl⟩
    refine (h4 c).1 q ?_ ⟨hq, ?_, i, h5, h8⟩
    · simpa using hv.parts q (List.mem_of_getElem? hq)
    · rintro rfl; exact h7 hq
  · intro c hc
    by_contra hcon
    have := (h4 c).2 (by
      rintro q _ ⟨h5, h6, j, h7, h8⟩
      refine hcon ⟨⟨j, h7, hs _ _ h8⟩, fun h9 => h6 ?_⟩
      unfold InPart at h5 h9
      rw [h5] at h9; exact Option.some.inj h9)
    rw [this] at hc; simp at hc

/-- The strip of `Verif.Props.Adjacency` meets the hypotheses. -/
example : ((do
    let o ← run strip
    let g ← ghostCells strip [1, 1, 1, 1] o 1
    return (g 0, g 1, g 2, g 3)) : Option _) =
    some (none, some (1, [1, 2, 7, 6]), none, some (1, [3, 4, 9, 8])) := by rfl

end MiniCFD.GhostSetup
