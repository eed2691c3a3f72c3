import Verif.Spec.Adjacency
import Mathlib.Tactic.Common

namespace MiniCFD.Adjacency
open MiniCFD.Spec.Adjacency

theorem mem_setInsert (x y : Nat) (l : List Nat) : y ∈ setInsert x l ↔ y = x ∨ y ∈ l := by
  induction l with
  | nil => simp [setInsert]
  | cons z l ih =>
    simp only [setInsert]
    split
    · simp
    · split
      · rename_i h; subst h; simp
      · simp [ih]; tauto

theorem setInsert_sorted (x : Nat) (l : List Nat) (h : l.Pairwise (· < ·)) :
    (setInsert x l).Pairwise (· < ·) := by
  induction l with
  | nil => simp [setInsert]
  | cons z l ih =>
    simp only [setInsert]
    rw [List.pairwise_cons] at h
    split
    · rename_i hx
      refine List.pairwise_cons.2 ⟨?_, List.pairwise_cons.2 h⟩
      intro a ha
      rcases List.mem_cons.1 ha with rfl | ha
      · exact hx
      · exact lt_trans hx (h.1 a ha)
    · split
      · exact List.pairwise_cons.2 h
      · refine List.pairwise_cons.2 ⟨?_, ih h.2⟩
        intro a ha
        rcases (mem_setInsert x a l).1 ha with rfl | ha
        · omega
        · exact h.1 a ha

theorem keys_spec (l : List Nat) : IsSortedSet (keys l) (fun n => n ∈ l) := by
  have : ∀ (l acc : List Nat), acc.Pairwise (· < ·) →
      IsSortedSet (l.foldl (fun s x => setInsert x s) acc) (fun n => n ∈ acc ∨ n ∈ l) := by
    intro l
    induction l with
    | nil => intro acc h; exact ⟨h, by simp⟩
    | cons x l ih =>
      intro acc h
      obtain ⟨h1, h2⟩ := ih (setInsert x acc) (setInsert_sorted x acc h)
      refine ⟨h1, fun n => ?_⟩
      rw [List.foldl_cons, h2]
      simp only [mem_setInsert, List.mem_cons]; tauto
  have h := this l [] List.Pairwise.nil
  exact ⟨h.1, fun n => by rw [keys, h.2]; simp⟩

theorem sortedSet_unique {l l' : List Nat} {S : Nat → Prop} (h : IsSortedSet l S)
    (h' : IsSortedSet l' S) : l = l' := by
  refine List.Perm.eq_of_pairwise (le := (· < ·)) ?_ h.1 h'.1 ?_
  · intro a b _ _ h1 h2; omega
  · refine (List.perm_ext_iff_of_nodup (h.1.imp (fun h => ?_)) (h'.1.imp (fun h => ?_))).2 ?_
    · omega
    · omega
    · intro a; rw [h.2, h'.2]

/-- What is known of the output when the node notes `(part, node)` in `N` and the ordered
pairs `(i, j)` in `L` have been treated. -/
structure OutInv (inp : Input) (N : Nat → Nat → Prop) (L : List (Nat × Nat)) (o : Out) : Prop where
  same : ∀ p q, o.sendNodes q p = o.adjNodes p q
  set : ∀ p q, IsSortedSet (o.adjNodes p q)
    (fun n => N p n ∧ p ≠ q ∧ inp.nodeParts[n]? = some q)
  inter : ∀ p q, o.inter p q = L.filter (fun ij =>
    decide (inp.cellParts[ij.1]? = some p) && decide (inp.cellParts[ij.2]? = some q)
      && decide (p ≠ q))
  inner : ∀ p, o.inner p = L.filter (fun ij =>
    decide (inp.cellParts[ij.1]? = some p) && decide (inp.cellParts[ij.2]? = some p)
      && decide (ij.1 < ij.2))

theorem OutInv.congr {inp : Input} {N N' : Nat → Nat → Prop} {L : List (Nat × Nat)} {o : Out}
    (h : OutInv inp N L o) (hN : ∀ p n, N p n ↔ N' p n) : OutInv inp N' L o := by
  refine ⟨h.same, fun p q => ⟨(h.set p q).1, fun n => ?_⟩, h.inter, h.inner⟩
  rw [(h.set p q).2]; simp only [hN]

theorem noteNode_inv {inp : Input} {N : Nat → Nat → Prop} {L : List (Nat × Nat)} {o : Out}
    {p n q : Nat} (h : OutInv inp N L o) (hq : inp.nodeParts[n]? = some q) (hqn : q < inp.nParts) :
    ∃ o', noteNode inp p n o = some o' ∧
      OutInv inp (fun p' n' => N p' n' ∨ (p' = p ∧ n' = n)) L o' := by
  simp only [noteNode, hq, Option.bind_eq_bind, Option.bind_some]
  by_cases hpq : q ≠ p
  · rw [if_pos hpq, if_pos hqn]
    refine ⟨_, rfl, ?_, ?_, h.inter, h.inner⟩
    · intro p' q'
      simp only [upd, h.same]
      by_cases h1 : p' = p ∧ q' = q
      · rw [if_pos h1, if_pos ⟨h1.2, h1.1⟩]
      · rw [if_neg h1, if_neg (fun h2 => h1 ⟨h2.2, h2.1⟩)]
    · intro p' q'
      simp only [upd]
      by_cases h1 : p' = p ∧ q' = q
      · rw [if_pos h1]
        obtain ⟨rfl, rfl⟩ := h1
        refine ⟨setInsert_sorted _ _ (h.set p' q').1, fun m => ?_⟩
        rw [mem_setInsert, (h.set p' q').2]
        constructor
        · rintro (rfl | ⟨h2, h3, h4⟩)
          · exact ⟨Or.inr ⟨rfl, rfl⟩, fun h => hpq h.symm, hq⟩
          · exact ⟨Or.inl h2, h3, h4⟩
        · rintro ⟨h2 | ⟨_, rfl⟩, h3, h4⟩
          · exact Or.inr ⟨h2, h3, h4⟩
          · exact Or.inl rfl
      · rw [if_neg h1]
        refine ⟨(h.set p' q').1, fun m => ?_⟩
        rw [(h.set p' q').2]
        constructor
        · rintro ⟨h2, h3, h4⟩; exact ⟨Or.inl h2, h3, h4⟩
        · rintro ⟨h2 | ⟨rfl, rfl⟩, h3, h4⟩
          · exact ⟨h2, h3, h4⟩
          · rw [hq] at h4; exact absurd ⟨rfl, (Option.some.inj h4).symm⟩ h1
  · have hpq' : q = p := by simpa using hpq
    subst hpq'
    rw [if_neg hpq]
    refine ⟨o, rfl, h.same, fun p' q' => ⟨(h.set p' q').1, fun m => ?_⟩, h.inter, h.inner⟩
    rw [(h.set p' q').2]
    constructor
    · rintro ⟨h2, h3, h4⟩; exact ⟨Or.inl h2, h3, h4⟩
    · rintro ⟨h2 | ⟨rfl, rfl⟩, h3, h4⟩
      · exact ⟨h2, h3, h4⟩
      · rw [hq] at h4; exact absurd (Option.some.inj h4) h3

theorem noteNodes_inv {inp : Input} {p : Nat} : ∀ (ns : List Nat) {N : Nat → Nat → Prop}
    {L : List (Nat × Nat)} {o : Out}, OutInv inp N L o →
    (∀ n ∈ ns, ∃ q, inp.nodeParts[n]? = some q ∧ q < inp.nParts) →
    ∃ o', noteNodes inp p ns o = some o' ∧
      OutInv inp (fun p' n' => N p' n' ∨ (p' = p ∧ n' ∈ ns)) L o' := by
  intro ns
  induction ns with
  | nil =>
    intro N L o h _
    exact ⟨o, rfl, h.congr (by simp)⟩
  | cons n ns ih =>
    intro N L o h hv
    obtain ⟨q, hq, hqn⟩ := hv n (by simp)
    obtain ⟨o1, h1, h2⟩ := noteNode_inv (p := p) h hq hqn
    obtain ⟨o2, h3, h4⟩ := ih h2 (fun m hm => hv m (by simp [hm]))
    refine ⟨o2, by simp [noteNodes, h1, h3], h4.congr (fun p' n' => ?_)⟩
    simp; tauto

theorem neighbourStep_inv {inp : Input} (hv : Valid inp) {N : Nat → Nat → Prop}
    {L : List (Nat × Nat)} {o : Out} {i p j : Nat} (h : OutInv inp N L o)
    (hi : InPart inp i p) (hj : j < inp.cellNodes.length) :
    ∃ o', neighbourStep inp i p j o = some o' ∧
      OutInv inp (fun p' n => N p' n ∨ (p' = p ∧ HasNode inp j n ∧ ¬ InPart inp j p))
        (L ++ [(i, j)]) o' := by
  obtain ⟨q, hq⟩ : ∃ q, inp.cellParts[j]? = some q :=
    ⟨_, List.getElem?_eq_getElem (by rw [hv.lenParts]; exact hj)⟩
  have hnodes : inp.cellNodes[j]? = some inp.cellNodes[j] := by simp
  simp only [neighbourStep, hq, Option.bind_eq_bind, Option.bind_some]
  unfold InPart at hi
  by_cases hpq : p = q
  · subst hpq
    rw [if_pos rfl]
    have hN : ∀ p' n, N p' n ↔ (N p' n ∨ (p' = p ∧ HasNode inp j n ∧ ¬ InPart inp j p)) := by
      intro p' n; simp [InPart, hq]
    have hinter : ∀ p' q', o.inter p' q' = (L ++ [(i, j)]).filter (fun ij =>
        decide (inp.cellParts[ij.1]? = some p') && decide (inp.cellParts[ij.2]? = some q')
          && decide (p' ≠ q')) := by
      intro p' q'
      rw [h.inter p' q', List.filter_append]
      have : [(i, j)].filter (fun ij => decide (inp.cellParts[ij.1]? = some p') &&
          decide (inp.cellParts[ij.2]? = some q') && decide (p' ≠ q')) = [] := by
        simp only [List.filter_cons, hi, hq, List.filter_nil]
        rw [if_neg]
        simp; intro h1 h2; omega
      rw [this, List.append_nil]
    by_cases hij : i < j
    · rw [if_pos hij]
      refine ⟨_, rfl, OutInv.congr (N := N) ⟨h.same, h.set, hinter, ?_⟩ hN⟩
      intro p'
      simp only
      split
      · rename_i he; subst he
        rw [h.inner p', List.filter_append]
        simp [hi, hq, hij]
      · rename_i he
        rw [h.inner p', List.filter_append]
        have : ¬ p = p' := fun h => he h.symm
        simp [hi, this]
    · rw [if_neg hij]
      refine ⟨_, rfl, OutInv.congr (N := N) ⟨h.same, h.set, hinter, ?_⟩ hN⟩
      intro p'
      rw [h.inner p', List.filter_append]
      simp [hij]
  · rw [if_neg hpq, hnodes, Option.bind_some]
    have h1 : OutInv inp N (L ++ [(i, j)])
        { o with inter := upd o.inter p q (o.inter p q ++ [(i, j)]) } := by
      refine ⟨h.same, h.set, ?_, ?_⟩
      · intro p' q'
        simp only [upd]
        by_cases he : p' = p ∧ q' = q
        · obtain ⟨rfl, rfl⟩ := he
          rw [if_pos ⟨rfl, rfl⟩, h.inter, List.filter_append]
          simp [hi, hq, hpq]
        · rw [if_neg he, h.inter, List.filter_append]
          have : [(i, j)].filter (fun ij => decide (inp.cellParts[ij.1]? = some p') &&
              decide (inp.cellParts[ij.2]? = some q') && decide (p' ≠ q')) = [] := by
            simp only [List.filter_cons, hi, hq, List.filter_nil]
            rw [if_neg]
            simp only [Option.some.injEq, ne_eq, decide_not, Bool.and_eq_true, decide_eq_true_eq,
              Bool.not_eq_eq_eq_not, Bool.not_true, decide_eq_false_iff_not, not_and]
            intro h1; exact absurd (And.intro h1.1.symm h1.2.symm) he
          rw [this, List.append_nil]
      · intro p'
        simp only
        rw [h.inner p', List.filter_append]
        have : [(i, j)].filter (fun ij => decide (inp.cellParts[ij.1]? = some p') &&
            decide (inp.cellParts[ij.2]? = some p') && decide (ij.1 < ij.2)) = [] := by
          simp only [List.filter_cons, hi, hq, List.filter_nil]
          rw [if_neg]
          simp only [Option.some.injEq, Bool.and_eq_true, decide_eq_true_eq, not_and]
          rintro ⟨h1, h2⟩; omega
        rw [this, List.append_nil]
    obtain ⟨o', h2, h3⟩ := noteNodes_inv (p := p) inp.cellNodes[j] h1
      (hv.owner _ (List.getElem_mem _))
    refine ⟨o', h2, h3.congr (fun p' n => ?_)⟩
    have hno : ¬ InPart inp j p := by
      unfold InPart; rw [hq]; simp only [Option.some.injEq]; exact fun h => hpq h.symm
    have hhas : HasNode inp j n ↔ n ∈ inp.cellNodes[j] := by
      unfold HasNode; rw [hnodes]; simp
    rw [hhas]; simp [hno]

theorem neighbours_inv {inp : Input} (hv : Valid inp) {i p : Nat} (hi : InPart inp i p) :
    ∀ (js : List Nat) {N : Nat → Nat → Prop} {L : List (Nat × Nat)} {o : Out}, OutInv inp N L o →
    (∀ j ∈ js, j < inp.cellNodes.length) →
    ∃ o', neighbours inp i p js o = some o' ∧
      OutInv inp (fun p' n => N p' n ∨ (p' = p ∧ ∃ j ∈ js, HasNode inp j n ∧ ¬ InPart inp j p))
        (L ++ js.map (fun j => (i, j))) o' := by
  intro js
  induction js with
  | nil =>
    intro N L o h _
    refine ⟨o, rfl, ?_⟩
    simp only [List.map_nil, List.append_nil]
    exact h.congr (by simp)
  | cons j js ih =>
    intro N L o h hlt
    obtain ⟨o1, h1, h2⟩ := neighbourStep_inv hv h hi (hlt j (by simp))
    obtain ⟨o2, h3, h4⟩ := ih h2 (fun k hk => hlt k (by simp [hk]))
    refine ⟨o2, by simp [neighbours, h1, h3], ?_⟩
    rw [List.map_cons, List.append_cons]
    refine h4.congr (fun p' n => ?_)
    simp only [List.mem_cons, exists_eq_or_imp]
    tauto

/-- The node notes of cell `i`. -/
def Notes (inp : Input) (i p n : Nat) : Prop :=
  InPart inp i p ∧ (HasNode inp i n ∨ ∃ j, Adjacent inp i j ∧ HasNode inp j n ∧ ¬ InPart inp j p)

theorem cellStep_inv {inp : Input} (hv : Valid inp) {N : Nat → Nat → Prop} {L : List (Nat × Nat)}
    {o : Out} {i : Nat} (h : OutInv inp N L o) (hi : i < inp.cellNodes.length) :
    ∃ o' js, cellStep inp i o = some o' ∧ inp.adj[i]? = some js ∧
      OutInv inp (fun p n => N p n ∨ Notes inp i p n) (L ++ js.map (fun j => (i, j))) o' := by
  obtain ⟨p, hp⟩ : ∃ p, inp.cellParts[i]? = some p :=
    ⟨_, List.getElem?_eq_getElem (by rw [hv.lenParts]; exact hi)⟩
  obtain ⟨js, hjs⟩ : ∃ js, inp.adj[i]? = some js :=
    ⟨_, List.getElem?_eq_getElem (by rw [hv.lenAdj]; exact hi)⟩
  have hnodes : inp.cellNodes[i]? = some inp.cellNodes[i] := by simp
  obtain ⟨o1, h1, h2⟩ := noteNodes_inv (p := p) inp.cellNodes[i] h
    (hv.owner _ (List.getElem_mem _))
  obtain ⟨o2, h3, h4⟩ := neighbours_inv hv (i := i) (p := p) hp js h2
    (hv.nbr js (List.mem_of_getElem? hjs))
  refine ⟨o2, js, ?_, hjs, h4.congr ?_⟩
  · simp only [cellStep, hp, Option.bind_eq_bind, Option.bind_some, hnodes, h1, hjs,
      if_pos (hv.parts p (List.mem_of_getElem? hp)), h3]
  · intro p' n
    have hhas : HasNode inp i n ↔ n ∈ inp.cellNodes[i] := by
      unfold HasNode; rw [hnodes]; simp
    have hadj : ∀ j, Adjacent inp i j ↔ j ∈ js := by
      intro j; unfold Adjacent; rw [hjs]; simp
    have hin : ∀ p', InPart inp i p' ↔ p' = p := by
      intro p'; unfold InPart; rw [hp]; simp only [Option.some.injEq]; exact eq_comm
    unfold Notes
    rw [hhas, hin]
    simp only [hadj]
    constructor
    · rintro ((h | ⟨rfl, h⟩) | ⟨rfl, j, h⟩)
      · exact Or.inl h
      · exact Or.inr ⟨rfl, Or.inl h⟩
      · exact Or.inr ⟨rfl, Or.inr ⟨j, h⟩⟩
    · rintro (h | ⟨rfl, h | ⟨j, h⟩⟩)
      · exact Or.inl (Or.inl h)
      · exact Or.inl (Or.inr ⟨rfl, h⟩)
      · exact Or.inr ⟨rfl, j, h⟩

/-- All ordered pairs of adjacent cells from cell `i` on, in the order of the loops. -/
def pairsFrom (inp : Input) : Nat → Nat → List (Nat × Nat)
  | 0, _ => []
  | k + 1, i => ((inp.adj[i]?).getD []).map (fun j => (i, j)) ++ pairsFrom inp k (i + 1)

theorem mem_pairsFrom {inp : Input} {k i a b : Nat} :
    (a, b) ∈ pairsFrom inp k i ↔ i ≤ a ∧ a < i + k ∧ Adjacent inp a b := by
  induction k generalizing i with
  | zero => simp [pairsFrom]; omega
  | succ k ih =>
    simp only [pairsFrom, List.mem_append, ih, List.mem_map, Prod.mk.injEq]
    constructor
    · rintro (⟨j, h1, rfl, rfl⟩ | ⟨h1, h2, h3⟩)
      · refine ⟨le_refl _, by omega, ?_⟩
        cases hj : inp.adj[i]? with
        | none => rw [hj] at h1; simp at h1
        | some js => rw [hj] at h1; exact ⟨js, hj, by simpa using h1⟩
      · exact ⟨by omega, by omega, h3⟩
    · rintro ⟨h1, h2, js, h3, h4⟩
      by_cases hia : i = a
      · subst hia
        left; exact ⟨b, by rw [h3]; exact h4, rfl, rfl⟩
      · right; exact ⟨by omega, by omega, js, h3, h4⟩

theorem cells_inv {inp : Input} (hv : Valid inp) : ∀ (k i : Nat) {N : Nat → Nat → Prop}
    {L : List (Nat × Nat)} {o : Out}, OutInv inp N L o → i + k = inp.cellNodes.length →
    ∃ o', cells inp k i o = some o' ∧
      OutInv inp (fun p n => N p n ∨ ∃ c, i ≤ c ∧ c < i + k ∧ Notes inp c p n)
        (L ++ pairsFrom inp k i) o' := by
  intro k
  induction k with
  | zero =>
    intro i N L o h _
    refine ⟨o, rfl, ?_⟩
    simp only [pairsFrom, List.append_nil]
    refine h.congr (fun p n => ⟨Or.inl, ?_⟩)
    rintro (h | ⟨c, h1, h2, _⟩)
    · exact h
    · omega
  | succ k ih =>
    intro i N L o h hik
    obtain ⟨o1, js, h1, hjs, h2⟩ := cellStep_inv hv h (i := i) (by omega)
    obtain ⟨o2, h3, h4⟩ := ih (i + 1) h2 (by omega)
    refine ⟨o2, by simp [cells, h1, h3], ?_⟩
    simp only [pairsFrom, hjs, Option.getD_some]
    rw [← List.append_assoc]
    refine h4.congr (fun p n => ?_)
    constructor
    · rintro ((h | h) | ⟨c, h5, h6, h7⟩)
      · exact Or.inl h
      · exact Or.inr ⟨i, le_refl _, by omega, h⟩
      · exact Or.inr ⟨c, by omega, by omega, h7⟩
    · rintro (h | ⟨c, h5, h6, h7⟩)
      · exact Or.inl (Or.inl h)
      · by_cases hc : c = i
        · subst hc; exact Or.inl (Or.inr h7)
        · exact Or.inr ⟨c, by omega, by omega, h7⟩

theorem run_inv {inp : Input} (hv : Valid inp) : ∃ o, run inp = some o ∧
    OutInv inp (fun p n => ∃ c, c < inp.cellNodes.length ∧ Notes inp c p n)
      (pairsFrom inp inp.cellNodes.length 0) o := by
  have h0 : OutInv inp (fun _ _ => False) [] {} :=
    ⟨fun _ _ => rfl, fun _ _ => ⟨List.Pairwise.nil, by simp⟩, fun _ _ => rfl, fun _ => rfl⟩
  obtain ⟨o, h1, h2⟩ := cells_inv hv inp.cellNodes.length 0 h0 (by simp)
  refine ⟨o, h1, ?_⟩
  rw [List.nil_append] at h2
  exact h2.congr (fun p n => by simp)

end MiniCFD.Adjacency
