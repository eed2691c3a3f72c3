import Verif.Model.Partition
import Verif.Spec.Partition
import Mathlib.Tactic.Common

namespace MiniCFD.Partition
open MiniCFD.Spec.Partition

/-- What is known of `node_parts` when the (cell, node) incidences in `S` were treated:
`S n p` - some treated incidence gives node `n` a cell of part `p`. -/
def Inv (nParts : Nat) (S : Nat → Nat → Prop) (parts : List Nat) : Prop :=
  ∀ (n v : Nat), parts[n]? = some v →
    (v = nParts ∨ S n v) ∧ v ≤ nParts ∧ ∀ p, S n p → v ≤ p

theorem nodeLoop_spec {idx : List Nat} {part nParts nNodes : Nat} :
    ∀ (k q : Nat) (parts : List Nat) (S : Nat → Nat → Prop),
    q + k ≤ idx.length → (∀ n ∈ idx, n < nNodes) → parts.length = nNodes → Inv nParts S parts →
    ∃ parts', nodeLoop idx part k q parts = some (parts', q + k) ∧ parts'.length = nNodes ∧
      Inv nParts (fun n p => S n p ∨ (p = part ∧ ∃ j, q ≤ j ∧ j < q + k ∧ idx[j]? = some n))
        parts' := by
  intro k
  induction k with
  | zero =>
    intro q parts S _ _ hl hi
    refine ⟨parts, rfl, hl, ?_⟩
    intro n v hv
    obtain ⟨h1, h2, h3⟩ := hi n v hv
    refine ⟨h1.imp id Or.inl, h2, ?_⟩
    rintro p (h | ⟨_, j, h4, h5, _⟩)
    · exact h3 p h
    · omega
  | succ k ih =>
    intro q parts S hq hn hl hi
    have hqi : q < idx.length := by omega
    obtain ⟨n0, hlt0⟩ : ∃ n0, idx[q]? = some n0 := ⟨_, List.getElem?_eq_getElem hqi⟩
    have hnode : n0 < nNodes := hn _ (List.mem_of_getElem? hlt0)
    obtain ⟨old, hold⟩ : ∃ old, parts[n0]? = some old :=
      ⟨_, List.getElem?_eq_getElem (by omega)⟩
    have hi' : Inv nParts (fun n p => S n p ∨ (p = part ∧ n = n0))
        (if part < old then parts.set n0 part else parts) := by
      intro n v hv
      obtain ⟨ho1, ho2, ho3⟩ := hi n0 _ hold
      split at hv
      · rename_i hlt
        by_cases hnn : n = n0
        · subst hnn
          rw [List.getElem?_set_self (by omega)] at hv
          obtain rfl := Option.some.inj hv
          refine ⟨Or.inr (Or.inr ⟨rfl, rfl⟩), by omega, ?_⟩
          rintro p (h | ⟨rfl, _⟩)
          · have := ho3 p h; omega
          · exact le_refl _
        · rw [List.getElem?_set_ne (fun h => hnn h.symm)] at hv
          obtain ⟨h1, h2, h3⟩ := hi n v hv
          refine ⟨h1.imp id Or.inl, h2, ?_⟩
          rintro p (h | ⟨_, h⟩)
          · exact h3 p h
          · exact absurd h hnn
      · rename_i hge
        obtain ⟨h1, h2, h3⟩ := hi n v hv
        refine ⟨h1.imp id Or.inl, h2, ?_⟩
        rintro p (h | ⟨rfl, rfl⟩)
        · exact h3 p h
        · rw [hold] at hv; obtain rfl := Option.some.inj hv; omega
    obtain ⟨parts', h1, h2, h3⟩ := ih (q + 1) _ _ (by omega) hn (by split <;> simp [hl]) hi'
    refine ⟨parts', ?_, h2, ?_⟩
    · simp only [nodeLoop, hlt0, hold, Option.bind_eq_bind, Option.bind_some, h1]
      congr 2; omega
    · intro n v hv
      obtain ⟨h4, h5, h6⟩ := h3 n v hv
      refine ⟨?_, h5, ?_⟩
      · rcases h4 with h4 | (h4 | ⟨rfl, rfl⟩) | ⟨rfl, j, hj1, hj2, hj3⟩
        · exact Or.inl h4
        · exact Or.inr (Or.inl h4)
        · exact Or.inr (Or.inr ⟨rfl, q, le_refl _, by omega, hlt0⟩)
        · exact Or.inr (Or.inr ⟨rfl, j, by omega, by omega, hj3⟩)
      · rintro p (h | ⟨rfl, j, hj1, hj2, hj3⟩)
        · exact h6 p (Or.inl (Or.inl h))
        · by_cases hjq : j = q
          · subst hjq
            have : n = n0 := by
              rw [hj3] at hlt0; exact Option.some.inj hlt0
            exact h6 p (Or.inl (Or.inr ⟨rfl, this⟩))
          · exact h6 p (Or.inr ⟨rfl, j, by omega, by omega, hj3⟩)

theorem cellLoop_spec {idx : List Nat} {nParts nNodes : Nat} (hn : ∀ n ∈ idx, n < nNodes) :
    ∀ (cellParts ptr : List Nat) (parts : List Nat) (q : Nat) (S : Nat → Nat → Prop),
    ptr.length = cellParts.length + 1 → ptr[0]? = some q →
    (∀ (i a b : Nat), ptr[i]? = some a → ptr[i + 1]? = some b → a ≤ b) →
    (∀ a ∈ ptr, a ≤ idx.length) →
    parts.length = nNodes → Inv nParts S parts →
    ∃ parts', cellLoop idx ptr cellParts q parts = some parts' ∧ parts'.length = nNodes ∧
      Inv nParts (fun n p => S n p ∨ ∃ i : Nat, Uses ptr idx i n ∧ cellParts[i]? = some p)
        parts' := by
  intro cellParts
  induction cellParts with
  | nil =>
    intro ptr parts q S hl h0 hm hle hpl hi
    refine ⟨parts, by cases ptr <;> rfl, hpl, ?_⟩
    intro n v hv
    obtain ⟨h1, h2, h3⟩ := hi n v hv
    refine ⟨h1.imp id Or.inl, h2, ?_⟩
    rintro p (h | ⟨i, _, h⟩)
    · exact h3 p h
    · simp at h
  | cons part cellParts ih =>
    intro ptr parts q S hl h0 hm hle hpl hi
    match ptr, hl with
    | head :: tail :: ptr, hl =>
      simp only [List.getElem?_cons_zero, Option.some.injEq] at h0
      subst h0
      have hht : head ≤ tail := hm 0 head tail rfl rfl
      have htl : tail ≤ idx.length := hle tail (by simp)
      obtain ⟨parts1, h1, h2, h3⟩ := nodeLoop_spec (part := part) (tail - head) head parts S (by omega) hn
        hpl hi
      rw [Nat.add_sub_cancel' hht] at h1 h3
      obtain ⟨parts', h4, h5, h6⟩ := ih (tail :: ptr) parts1 tail _ (by simpa using hl) rfl
        (fun i a b ha hb => hm (i + 1) a b (by simpa using ha) (by simpa using hb))
        (fun a ha => hle a (by simp at ha ⊢; tauto)) h2 h3
      refine ⟨parts', by simp [cellLoop, h1, h4], h5, ?_⟩
      have hshift : ∀ (i n : Nat), Uses (tail :: ptr) idx i n → Uses (head :: tail :: ptr) idx (i + 1) n := by
        rintro i n ⟨a, b, j, ha, hb, hj⟩
        exact ⟨a, b, j, by simpa using ha, by simpa using hb, hj⟩
      intro n v hv
      obtain ⟨h7, h8, h9⟩ := h6 n v hv
      refine ⟨?_, h8, ?_⟩
      · rcases h7 with h7 | (h7 | ⟨rfl, j, hj1, hj2, hj3⟩) | ⟨i, hi1, hi2⟩
        · exact Or.inl h7
        · exact Or.inr (Or.inl h7)
        · exact Or.inr (Or.inr ⟨0, ⟨head, tail, j, rfl, rfl, hj1, hj2, hj3⟩, rfl⟩)
        · exact Or.inr (Or.inr ⟨i + 1, hshift i n hi1, by simpa using hi2⟩)
      · rintro p (h | ⟨i, hi1, hi2⟩)
        · exact h9 p (Or.inl (Or.inl h))
        · cases i with
          | zero =>
            obtain ⟨a, b, j, ha, hb, hj1, hj2, hj3⟩ := hi1
            simp only [List.getElem?_cons_zero, Option.some.injEq, Nat.zero_add,
              List.getElem?_cons_succ] at ha hb hi2
            subst ha; subst hb; subst hi2
            exact h9 _ (Or.inl (Or.inr ⟨rfl, j, hj1, hj2, hj3⟩))
          | succ i =>
            obtain ⟨a, b, j, ha, hb, hj⟩ := hi1
            exact h9 p (Or.inr ⟨i, ⟨a, b, j, by simpa using ha, by simpa using hb, hj⟩,
              by simpa using hi2⟩)

/-! ### slices -/

/-- The table when the field `done` (starting at `first`) was sliced, except for the current
run: parts met before the current one have exact ranges, others are still `(0, 0)`. -/
theorem sliceLoop_spec {first nParts : Nat} :
    ∀ (rest done : List Nat) (curr prev prevPart : Nat) (table : List (Nat × Nat)),
    curr = first + done.length → first ≤ prev → prev < curr →
    (done ++ rest).Pairwise (· ≤ ·) → (∀ p ∈ done ++ rest, p < nParts) → table.length = nParts →
    (∀ i, prev ≤ i → i < curr → done[i - first]? = some prevPart) →
    (∀ (i p : Nat), first ≤ i → i < prev → done[i - first]? = some p → p < prevPart) →
    (∀ (p : Nat) r, p < prevPart → table[p]? = some r → r.1 ≤ r.2 ∧
      ∀ id, (r.1 ≤ id ∧ id < r.2) ↔ (first ≤ id ∧ done[id - first]? = some p)) →
    (∀ p : Nat, prevPart ≤ p → p < nParts → table[p]? = some (0, 0)) →
    ∃ table', sliceLoop rest curr prev prevPart table = some table' ∧ table'.length = nParts ∧
      ExactRanges first (done ++ rest) table' := by
  intro rest
  induction rest with
  | nil =>
    intro done curr prev prevPart table hcurr hfp hpc hsort hlt hlen hrun hbefore hexact hzero
    simp only [List.append_nil] at *
    have hpp : prevPart < nParts := by
      refine hlt prevPart (List.mem_of_getElem? (hrun prev (le_refl _) hpc))
    refine ⟨table.set prevPart (prev, curr), ?_, by simp [hlen], ?_⟩
    · simp only [sliceLoop, writeRange]
      rw [if_pos (by omega)]
    · intro p head tail hr
      rcases lt_trichotomy p prevPart with h | h | h
      · rw [List.getElem?_set_ne (by omega)] at hr
        exact hexact p _ h hr
      · subst h
        rw [List.getElem?_set_self (by omega)] at hr
        simp only [Option.some.injEq, Prod.mk.injEq] at hr
        obtain ⟨rfl, rfl⟩ := hr
        refine ⟨by omega, fun id => ⟨?_, ?_⟩⟩
        · rintro ⟨h1, h2⟩
          exact ⟨by omega, hrun id h1 h2⟩
        · rintro ⟨h1, h2⟩
          have := (List.getElem?_eq_some_iff.1 h2).1
          refine ⟨?_, by omega⟩
          by_contra hc
          have := hbefore id p h1 (by omega) h2
          omega
      · rw [List.getElem?_set_ne (by omega)] at hr
        have hpn : p < nParts := by
          rw [← hlen]; exact (List.getElem?_eq_some_iff.1 hr).1
        rw [hzero p (by omega) hpn] at hr
        simp only [Option.some.injEq, Prod.mk.injEq] at hr
        obtain ⟨rfl, rfl⟩ := hr
        refine ⟨le_refl _, fun id => ⟨fun h => by omega, ?_⟩⟩
        rintro ⟨h1, h2⟩
        exfalso
        by_cases hid : id < prev
        · have := hbefore id p h1 hid h2; omega
        · have hb := (List.getElem?_eq_some_iff.1 h2).1
          have := hrun id (by omega) (by omega)
          rw [h2] at this
          have := Option.some.inj this; omega
  | cons part rest ih =>
    intro done curr prev prevPart table hcurr hfp hpc hsort hlt hlen hrun hbefore hexact hzero
    have hpp : prevPart < nParts :=
      hlt prevPart (by
        have := List.mem_of_getElem? (hrun prev (le_refl _) hpc)
        simp [this])
    have happ : done ++ part :: rest = (done ++ [part]) ++ rest := by simp
    have hge : prevPart ≤ part := by
      have h1 := hrun prev (le_refl _) hpc
      rw [List.pairwise_append] at hsort
      exact hsort.2.2 prevPart (List.mem_of_getElem? h1) part (by simp)
    have hget : ∀ i : Nat, i < done.length → (done ++ [part])[i]? = done[i]? := by
      intro i hi; rw [List.getElem?_append_left hi]
    have hlast : (done ++ [part])[done.length]? = some part := by simp
    have hinv : ∀ (i p : Nat), (done ++ [part])[i]? = some p →
        done[i]? = some p ∨ (i = done.length ∧ p = part) := by
      intro i p h
      by_cases hi : i < done.length
      · left; rw [← hget i hi]; exact h
      · right
        have := (List.getElem?_eq_some_iff.1 h).1
        simp at this
        have hi' : i = done.length := by omega
        subst hi'
        rw [hlast] at h
        exact ⟨rfl, (Option.some.inj h).symm⟩
    by_cases hne : part ≠ prevPart
    · have hlt' : prevPart < part := by omega
      rw [happ]
      have key := ih (done ++ [part]) (curr + 1) curr part (table.set prevPart (prev, curr))
        (by simp; omega) (by omega) (by omega) (by rw [← happ]; exact hsort)
        (by rw [← happ]; exact hlt) (by simp [hlen]) ?_ ?_ ?_ ?_
      · obtain ⟨t, h1, h2⟩ := key
        refine ⟨t, ?_, h2⟩
        simp only [sliceLoop, if_pos hne, writeRange]
        rw [if_pos (show prevPart < table.length by omega)]
        exact h1
      · intro i h1 h2
        have : i - first = done.length := by omega
        rw [this, hlast]
      · intro i p h1 h2 h3
        rcases hinv _ _ h3 with h3 | ⟨h3, _⟩
        · by_cases hi : i < prev
          · have := hbefore i p h1 hi h3; omega
          · have := hrun i (by omega) h2
            rw [h3] at this
            have := Option.some.inj this; omega
        · omega
      · intro p r hp hr
        have hdone : ∀ id, (first ≤ id ∧ (done ++ [part])[id - first]? = some p) ↔
            (first ≤ id ∧ done[id - first]? = some p) := by
          intro id
          refine and_congr_right (fun _ => ⟨fun h => ?_, fun h => ?_⟩)
          · rcases hinv _ _ h with h | ⟨_, h⟩
            · exact h
            · omega
          · rw [hget _ (List.getElem?_eq_some_iff.1 h).1]; exact h
        rcases lt_trichotomy p prevPart with h | h | h
        · rw [List.getElem?_set_ne (by omega)] at hr
          obtain ⟨h1, h2⟩ := hexact p r h hr
          exact ⟨h1, fun id => by rw [hdone]; exact h2 id⟩
        · subst h
          rw [List.getElem?_set_self (by omega)] at hr
          obtain rfl := Option.some.inj hr
          refine ⟨by simp only; omega, fun id => ?_⟩
          rw [hdone]
          constructor
          · rintro ⟨h1, h2⟩
            exact ⟨by simp only at h1; omega, hrun id h1 h2⟩
          · rintro ⟨h1, h2⟩
            have hb := (List.getElem?_eq_some_iff.1 h2).1
            refine ⟨?_, by simp only; omega⟩
            simp only
            by_contra hc
            have := hbefore id p h1 (by omega) h2
            omega
        · rw [List.getElem?_set_ne (by omega)] at hr
          have hpn : p < nParts := by
            rw [← hlen]; exact (List.getElem?_eq_some_iff.1 hr).1
          rw [hzero p (by omega) hpn] at hr
          obtain rfl := Option.some.inj hr
          refine ⟨le_refl _, fun id => ?_⟩
          rw [hdone]
          refine ⟨fun h => by simp only at h; omega, ?_⟩
          rintro ⟨h1, h2⟩
          exfalso
          by_cases hid : id < prev
          · have := hbefore id p h1 hid h2; omega
          · have hb := (List.getElem?_eq_some_iff.1 h2).1
            have := hrun id (by omega) (by omega)
            rw [h2] at this
            have := Option.some.inj this; omega
      · intro p h1 h2
        rw [List.getElem?_set_ne (by omega)]
        exact hzero p (by omega) h2
    · have hpe : part = prevPart := by simpa using hne
      subst hpe
      rw [happ]
      have key := ih (done ++ [part]) (curr + 1) prev part table
        (by simp; omega) (by omega) (by omega) (by rw [← happ]; exact hsort)
        (by rw [← happ]; exact hlt) hlen ?_ ?_ ?_ hzero
      · obtain ⟨t, h1, h2⟩ := key
        refine ⟨t, ?_, h2⟩
        simp only [sliceLoop, if_neg hne]
        exact h1
      · intro i h1 h2
        by_cases hi : i < curr
        · rw [hget _ (by omega)]; exact hrun i h1 hi
        · have : i - first = done.length := by omega
          rw [this, hlast]
      · intro i p h1 h2 h3
        rcases hinv _ _ h3 with h3 | ⟨h3, _⟩
        · exact hbefore i p h1 h2 h3
        · omega
      · intro p r hp hr
        obtain ⟨h1, h2⟩ := hexact p r hp hr
        refine ⟨h1, fun id => (h2 id).trans (and_congr_right fun _ => ⟨fun h => ?_, fun h => ?_⟩)⟩
        · rw [hget _ (List.getElem?_eq_some_iff.1 h).1]; exact h
        · rcases hinv _ _ h with h | ⟨_, h⟩
          · exact h
          · omega

end MiniCFD.Partition
