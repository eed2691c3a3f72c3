import Verif.Lemmas.Adjacency
import Mathlib.Data.List.Nodup

/-
C07: the send and receive lists of every pair of ranks agree, and are the right sets.
-/
namespace MiniCFD.Adjacency
open MiniCFD.Spec.Adjacency

/-- The node lists: the sender's and the receiver's copies are equal, sorted without
repetition, and hold exactly the nodes the receiver needs and the sender owns. -/
theorem nodeLists_agree {inp : Input} (hv : Valid inp) : ∃ o, run inp = some o ∧
    ∀ p q, o.sendNodes q p = o.adjNodes p q ∧
      IsSortedSet (o.adjNodes p q)
        (fun n => NeedsNode inp p n ∧ p ≠ q ∧ inp.nodeParts[n]? = some q) := by
  obtain ⟨o, h1, h2⟩ := run_inv hv
  refine ⟨o, h1, fun p q => ⟨h2.same p q, (h2.set p q).1, fun n => ?_⟩⟩
  rw [(h2.set p q).2]
  have key : (∃ c, c < inp.cellNodes.length ∧ Notes inp c p n) ↔ NeedsNode inp p n := by
    constructor
    · rintro ⟨c, _, h3, h4 | ⟨j, h4, h5, _⟩⟩
      · exact ⟨c, Or.inl h3, h4⟩
      · exact ⟨j, Or.inr ⟨c, h3, h4⟩, h5⟩
    · have hlt : ∀ {c p}, InPart inp c p → c < inp.cellNodes.length := by
        intro c p h
        rw [← hv.lenParts]
        exact (List.getElem?_eq_some_iff.1 h).1
      rintro ⟨c, h3 | ⟨i, h3, h4⟩, h5⟩
      · exact ⟨c, hlt h3, h3, Or.inl h5⟩
      · by_cases hc : InPart inp c p
        · exact ⟨c, hlt hc, hc, Or.inl h5⟩
        · exact ⟨i, hlt h3, h3, Or.inr ⟨c, h4, h5, hc⟩⟩
  simp only [key]

theorem inter_mem {inp : Input} (hv : Valid inp) {o : Out} (h : run inp = some o) (p q i j : Nat) :
    (i, j) ∈ o.inter p q ↔ InPart inp i p ∧ InPart inp j q ∧ p ≠ q ∧ Adjacent inp i j := by
  obtain ⟨o', h1, h2⟩ := run_inv hv
  rw [h] at h1; cases h1
  rw [h2.inter p q, List.mem_filter, mem_pairsFrom]
  simp only [Nat.zero_le, Nat.zero_add, true_and, Bool.and_eq_true, decide_eq_true_eq, InPart]
  constructor
  · rintro ⟨⟨_, h3⟩, ⟨h4, h5⟩, h6⟩; exact ⟨h4, h5, h6, h3⟩
  · rintro ⟨h4, h5, h6, h3⟩
    refine ⟨⟨?_, h3⟩, ⟨h4, h5⟩, h6⟩
    rw [← hv.lenParts]
    exact (List.getElem?_eq_some_iff.1 h4).1

/-- Each face between two cells of the same part is listed once, each face between two parts
once on either side. -/
theorem pairs_exact {inp : Input} (hv : Valid inp) : ∃ o, run inp = some o ∧
    (∀ p i j, (i, j) ∈ o.inner p ↔
      InPart inp i p ∧ InPart inp j p ∧ i < j ∧ Adjacent inp i j) ∧
    (∀ p q i j, (i, j) ∈ o.inter p q ↔
      InPart inp i p ∧ InPart inp j q ∧ p ≠ q ∧ Adjacent inp i j) ∧
    ((∀ js ∈ inp.adj, js.Nodup) → ∀ p q, (o.inner p).Nodup ∧ (o.inter p q).Nodup) := by
  obtain ⟨o, h1, h2⟩ := run_inv hv
  refine ⟨o, h1, ?_, inter_mem hv h1, ?_⟩
  · intro p i j
    rw [h2.inner p, List.mem_filter, mem_pairsFrom]
    simp only [Nat.zero_le, Nat.zero_add, true_and, Bool.and_eq_true, decide_eq_true_eq, InPart]
    constructor
    · rintro ⟨⟨_, h3⟩, ⟨h4, h5⟩, h6⟩; exact ⟨h4, h5, h6, h3⟩
    · rintro ⟨h4, h5, h6, h3⟩
      refine ⟨⟨?_, h3⟩, ⟨h4, h5⟩, h6⟩
      rw [← hv.lenParts]
      exact (List.getElem?_eq_some_iff.1 h4).1
  · intro hnd p q
    have hp : ∀ k i, (pairsFrom inp k i).Nodup := by
      intro k
      induction k with
      | zero => intro i; exact List.nodup_nil
      | succ k ih =>
        intro i
        simp only [pairsFrom]
        refine List.nodup_append.2 ⟨?_, ih (i + 1), ?_⟩
        · refine List.Nodup.map (fun a b h => (Prod.mk.inj h).2) ?_
          cases hj : inp.adj[i]? with
          | none => simp
          | some js => exact hnd js (List.mem_of_getElem? hj)
        · rintro ⟨a, b⟩ h3 ⟨a', b'⟩ h4 heq
          cases heq
          have h5 := (mem_pairsFrom.1 h4).1
          obtain ⟨j, _, h6⟩ := List.mem_map.1 h3
          cases h6
          omega
    rw [h2.inner, h2.inter]
    exact ⟨(hp _ _).filter _, (hp _ _).filter _⟩

/-- The cell lists: for every pair of ranks, the cells `p` sends to `q` are, in the same order,
the ghost cells `q` receives from `p`; they are exactly the cells of `p` bordering on `q`. -/
theorem cellLists_agree {inp : Input} (hv : Valid inp) (hs : Symmetric inp) :
    ∃ o, run inp = some o ∧ ∀ p q, sendCells o p q = recvCells o q p ∧
      IsSortedSet (sendCells o p q) (Border inp p q) := by
  obtain ⟨o, h1, _⟩ := run_inv hv
  refine ⟨o, h1, fun p q => ?_⟩
  have hsend : IsSortedSet (sendCells o p q) (Border inp p q) := by
    obtain ⟨h3, h4⟩ := keys_spec ((o.inter p q).map Prod.fst)
    refine ⟨h3, fun c => ?_⟩
    rw [sendCells, h4]
    simp only [List.mem_map, Prod.exists, exists_and_right, exists_eq_right]
    constructor
    · rintro ⟨j, h5⟩
      obtain ⟨h6, h7, h8, h9⟩ := (inter_mem hv h1 _ _ _ _).1 h5
      exact ⟨h6, h8, j, h7, h9⟩
    · rintro ⟨h6, h8, j, h7, h9⟩
      exact ⟨j, (inter_mem hv h1 _ _ _ _).2 ⟨h6, h7, h8, h9⟩⟩
  have hrecv : IsSortedSet (recvCells o q p) (Border inp p q) := by
    obtain ⟨h3, h4⟩ := keys_spec ((o.inter q p).map Prod.snd)
    refine ⟨h3, fun c => ?_⟩
    rw [recvCells, h4]
    simp only [List.mem_map, Prod.exists, exists_eq_right]
    constructor
    · rintro ⟨j, h5⟩
      obtain ⟨h6, h7, h8, h9⟩ := (inter_mem hv h1 _ _ _ _).1 h5
      exact ⟨h7, fun h => h8 h.symm, j, h6, hs _ _ h9⟩
    · rintro ⟨h6, h8, j, h7, h9⟩
      exact ⟨j, (inter_mem hv h1 _ _ _ _).2 ⟨h7, h6, fun h => h8 h.symm, hs _ _ h9⟩⟩
  exact ⟨sortedSet_unique hsend hrecv, hsend⟩

/-- A strip of four quadrangles in three parts. -/
def strip : Input where
  nParts := 3
  cellNodes := [[0, 1, 6, 5], [1, 2, 7, 6], [2, 3, 8, 7], [3, 4, 9, 8]]
  adj := [[1], [0, 2], [1, 3], [2]]
  cellParts := [0, 0, 1, 2]
  nodeParts := [0, 0, 0, 1, 2, 0, 0, 0, 1, 2]

theorem strip_valid : Valid strip :=
  ⟨by decide, by decide, by decide, by decide, by
    intro ns hns n hn
    have h : ∀ ns ∈ strip.cellNodes, ∀ n ∈ ns, ∃ q ∈ List.range 3,
      strip.nodeParts[n]? = some q := by decide
    obtain ⟨q, h1, h2⟩ := h ns hns n hn
    exact ⟨q, h2, List.mem_range.1 h1⟩⟩

theorem strip_symmetric : Symmetric strip := by
  rintro i j ⟨js, h1, h2⟩
  have h : ∀ i ∈ List.range 4, ∀ js ∈ strip.adj[i]?, ∀ j ∈ js, ∃ is ∈ strip.adj[j]?, i ∈ is := by
    decide
  have hi : i < 4 := (List.getElem?_eq_some_iff.1 h1).1
  obtain ⟨is, h3, h4⟩ := h i (by simpa using hi) js (by simpa using h1) j h2
  exact ⟨is, by simpa using h3, h4⟩

example : ((run strip).map fun o => [o.adjNodes 1 0, o.adjNodes 1 2, sendCells o 0 1,
    recvCells o 1 0]) = some [[1, 2, 6, 7], [4, 9], [1], [1]] := by decide

end MiniCFD.Adjacency
