import Verif.Model.Shuffle
import Verif.Spec.Shuffle
import Mathlib.Data.List.Basic
import Mathlib.Data.List.Nodup
import Mathlib.Data.List.Range
import Mathlib.Tactic.Common

namespace MiniCFD.Shuffle
open MiniCFD.Spec.Shuffle

variable {T : Type} [LinearOrder T] {α β : Type}

/-! ### `mapM` in `Option` -/

theorem mapM_eq_some {f : α → Option β} {l : List α} {r : List β} :
    l.mapM f = some r ↔ List.Forall₂ (fun a b => f a = some b) l r := by
  induction l generalizing r with
  | nil =>
    simp only [List.mapM_nil, Option.pure_def, Option.some.injEq]
    constructor
    · rintro rfl; exact .nil
    · intro h; cases h; rfl
  | cons a l ih =>
    simp only [List.mapM_cons, Option.pure_def, Option.bind_eq_bind, Option.bind_eq_some_iff,
      Option.some.injEq]
    constructor
    · rintro ⟨b, hb, r', hr', rfl⟩
      exact .cons hb (ih.1 hr')
    · intro h
      cases h with
      | cons hb ht => exact ⟨_, hb, _, ih.2 ht, rfl⟩

theorem mapM_length {f : α → Option β} {l : List α} {r : List β} (h : l.mapM f = some r) :
    r.length = l.length := (mapM_eq_some.1 h).length_eq.symm

theorem mapM_get {f : α → Option β} {l : List α} {r : List β} (h : l.mapM f = some r)
    {i : Nat} {a : α} (ha : l[i]? = some a) : r[i]? = f a := by
  rw [mapM_eq_some] at h
  induction h generalizing i with
  | nil => simp at ha
  | cons hb _ ih =>
    cases i with
    | zero => simp at ha; subst ha; simp [hb]
    | succ i => simp at ha ⊢; exact ih ha

theorem mapM_isSome {f : α → Option β} {l : List α} (h : ∀ a ∈ l, (f a).isSome) :
    ∃ r, l.mapM f = some r := by
  induction l with
  | nil => exact ⟨[], rfl⟩
  | cons a l ih =>
    obtain ⟨r, hr⟩ := ih (fun x hx => h x (by simp [hx]))
    obtain ⟨b, hb⟩ := Option.isSome_iff_exists.1 (h a (by simp))
    exact ⟨b :: r, by simp [hb, hr]⟩

/-! ### the comparison -/

theorem cmp_iff (parts : List T) (a b : Nat) : cmp parts a b = true ↔
    (∃ x y, parts[a]? = some x ∧ parts[b]? = some y ∧ (x < y ∨ x = y ∧ a < b)) ∨
    (∃ x, parts[a]? = some x ∧ parts[b]? = none) ∨
    (parts[a]? = none ∧ parts[b]? = none ∧ a < b) := by
  unfold cmp
  cases parts[a]? <;> cases parts[b]? <;> simp

theorem cmp_trans (parts : List T) (a b c : Nat) (h1 : cmp parts a b = true)
    (h2 : cmp parts b c = true) : cmp parts a c = true := by
  unfold cmp at *
  cases ha : parts[a]? <;> cases hb : parts[b]? <;> cases hc : parts[c]? <;>
    simp_all
  · omega
  · rcases h1 with h1 | ⟨h1, h1'⟩ <;> rcases h2 with h2 | ⟨h2, h2'⟩
    · exact Or.inl (lt_trans h1 h2)
    · exact Or.inl (h2 ▸ h1)
    · exact Or.inl (h1 ▸ h2)
    · exact Or.inr ⟨h1.trans h2, by omega⟩

theorem cmp_irrefl (parts : List T) (a : Nat) : cmp parts a a = false := by
  unfold cmp
  cases parts[a]? <;> simp

theorem cmp_total (parts : List T) (a b : Nat) (h : a ≠ b) :
    cmp parts a b = true ∨ cmp parts b a = true := by
  unfold cmp
  cases parts[a]? with
  | none => cases parts[b]? with
    | none => simp; omega
    | some y => simp
  | some x => cases parts[b]? with
    | none => simp
    | some y =>
      simp
      rcases lt_trichotomy x y with hx | hx | hx
      · simp [hx]
      · subst hx; simp; omega
      · simp [hx]

theorem cmp_asymm (parts : List T) (a b : Nat) (h : cmp parts a b = true) :
    cmp parts b a = false := by
  by_contra hc
  have := cmp_trans parts a b a h (by simpa using hc)
  rw [cmp_irrefl] at this; exact absurd this (by simp)

/-- The list produced by the sort. -/
def sorted (parts : List T) : List Nat :=
  (List.range parts.length).insertionSort (fun a b => cmp parts b a = false)

theorem sorted_perm (parts : List T) : (sorted parts).Perm (List.range parts.length) :=
  List.perm_insertionSort _ _

theorem sorted_length (parts : List T) : (sorted parts).length = parts.length := by
  simpa using (sorted_perm parts).length_eq

theorem sorted_nodup (parts : List T) : (sorted parts).Nodup :=
  (sorted_perm parts).nodup_iff.2 List.nodup_range

theorem mem_sorted (parts : List T) (j : Nat) : j ∈ sorted parts ↔ j < parts.length := by
  rw [(sorted_perm parts).mem_iff]; simp

theorem sorted_pairwise (parts : List T) :
    (sorted parts).Pairwise (fun a b => cmp parts a b = true) := by
  have htr : IsTrans Nat (fun a b => cmp parts b a = false) := ⟨by
    intro a b c h1 h2
    by_contra hc
    simp only [Bool.not_eq_false] at hc
    by_cases hab : a = b
    · subst hab; rw [hc] at h2; exact absurd h2 (by simp)
    · rcases cmp_total parts a b hab with h | h
      · have := cmp_trans parts c a b hc h
        rw [this] at h2; exact absurd h2 (by simp)
      · rw [h] at h1; exact absurd h1 (by simp)⟩
  have hto : Std.Total (fun a b => cmp parts b a = false) := ⟨by
    intro a b
    by_cases hab : a = b
    · subst hab; simp [cmp_irrefl]
    · rcases cmp_total parts a b hab with h | h
      · simp [cmp_asymm _ _ _ h]
      · simp [cmp_asymm _ _ _ h]⟩
  have h : (sorted parts).Pairwise (fun a b => cmp parts b a = false) :=
    List.pairwise_insertionSort _ _
  refine ((List.pairwise_and_iff).2 ⟨h, sorted_nodup parts⟩).imp ?_
  rintro a b ⟨h1, h2⟩
  rcases cmp_total parts a b h2 with h | h
  · exact h
  · rw [h] at h1; exact absurd h1 (by simp)

/-! ### the inverse table -/

theorem invertLoop_spec (js : List Nat) (i : Nat) (acc : List Nat)
    (hlt : ∀ j ∈ js, j < acc.length) (hnd : js.Nodup) :
    ∃ r, invertLoop js i acc = some r ∧ r.length = acc.length ∧
      (∀ (k j : Nat), js[k]? = some j → r[j]? = some (i + k)) ∧
      (∀ j, j ∉ js → r[j]? = acc[j]?) := by
  induction js generalizing i acc with
  | nil => exact ⟨acc, rfl, rfl, by simp, by simp⟩
  | cons j js ih =>
    have hj : j < acc.length := hlt j (by simp)
    rw [List.nodup_cons] at hnd
    obtain ⟨r, hr, hl, h1, h2⟩ := ih (i + 1) (acc.set j i)
      (fun x hx => by simpa using hlt x (by simp [hx])) hnd.2
    refine ⟨r, by simp [invertLoop, hj, hr], by simpa using hl, ?_, ?_⟩
    · intro k j' hk
      cases k with
      | zero =>
        simp at hk; subst hk
        rw [h2 j hnd.1]; simp [hj]
      | succ k =>
        simp at hk
        rw [h1 k j' hk]; congr 1; omega
    · intro j' hj'
      simp only [List.mem_cons, not_or] at hj'
      rw [h2 j' hj'.2, List.getElem?_set_ne (fun h => hj'.1 h.symm)]

/-! ### `gather`, `overwrite`, `shuffleData` -/

theorem gather_spec {off : Nat} {idx : List Nat} {data new : List α}
    (h : gather off idx data = some new) :
    new.length = idx.length ∧
      ∀ (i j : Nat), idx[i]? = some j → new[i]? = data[off + j]? :=
  ⟨mapM_length h, fun _ _ hij => mapM_get h hij⟩

theorem gather_isSome {off : Nat} {idx : List Nat} {data : List α}
    (h : ∀ j ∈ idx, off + j < data.length) : ∃ new, gather off idx data = some new :=
  mapM_isSome (fun j hj => by simp [h j hj])

theorem overwrite_spec {off : Nat} {new data r : List α} (h : overwrite off new data = some r) :
    off + new.length ≤ data.length ∧ r.length = data.length ∧
      (∀ i, i < new.length → r[off + i]? = new[i]?) ∧
      (∀ k, k < off ∨ off + new.length ≤ k → r[k]? = data[k]?) := by
  unfold overwrite at h
  split at h
  · rename_i hle
    simp only [Option.some.injEq] at h
    subst h
    have htk : (data.take off).length = off := by simp; omega
    refine ⟨hle, by simp; omega, ?_, ?_⟩
    · intro i hi
      rw [List.append_assoc, List.getElem?_append_right (by omega), htk,
        List.getElem?_append_left (by omega)]
      congr 1; omega
    · rintro k (hk | hk)
      · rw [List.append_assoc, List.getElem?_append_left (by omega), List.getElem?_take_of_lt hk]
      · rw [List.getElem?_append_right (by simp; omega), List.getElem?_drop]
        congr 1; simp; omega
  · simp at h

theorem overwrite_isSome {off : Nat} {new data : List α} (h : off + new.length ≤ data.length) :
    ∃ r, overwrite off new data = some r := by
  unfold overwrite; rw [if_pos h]; exact ⟨_, rfl⟩

theorem shuffleData_spec {order : List Nat} {off : Nat} {data r : List α}
    (h : shuffleData order off data = some r) : ReorderedAt off order data r := by
  simp only [shuffleData, Option.bind_eq_bind, Option.bind_eq_some_iff] at h
  obtain ⟨new, hnew, hr⟩ := h
  obtain ⟨hl, hget⟩ := gather_spec hnew
  obtain ⟨_, hrl, hin, hout⟩ := overwrite_spec hr
  refine ⟨hrl, ?_, ?_⟩
  · intro i j hij
    have hi : i < order.length := (List.getElem?_eq_some_iff.1 hij).1
    rw [hin i (by omega), hget i j hij]
  · intro k hk; exact hout k (by omega)

theorem shuffleData_isSome {order : List Nat} {off : Nat} {data : List α}
    (h : ∀ j ∈ order, off + j < data.length) (hl : off + order.length ≤ data.length) :
    ∃ r, shuffleData order off data = some r := by
  obtain ⟨new, hnew⟩ := gather_isSome h
  obtain ⟨r, hr⟩ := overwrite_isSome (off := off) (new := new) (data := data)
    (by rw [(gather_spec hnew).1]; exact hl)
  exact ⟨r, by simp [shuffleData, hnew, hr]⟩

/-! ### connectivity -/

theorem flatten_get {rows : List (List α)} {npe : Nat} (h : ∀ r ∈ rows, r.length = npe)
    {c k : Nat} (hk : k < npe) : rows.flatten[npe * c + k]? = (rows[c]?).bind (·[k]?) := by
  induction rows generalizing c with
  | nil => simp
  | cons r rows ih =>
    have hr : r.length = npe := h r (by simp)
    cases c with
    | zero =>
      simp only [List.flatten_cons, Nat.mul_zero, Nat.zero_add, List.getElem?_cons_zero,
        Option.bind_some]
      rw [List.getElem?_append_left (by omega)]
    | succ c =>
      simp only [List.flatten_cons, List.getElem?_cons_succ]
      rw [List.getElem?_append_right (by rw [hr, Nat.mul_succ]; omega), hr,
        ← ih (fun x hx => h x (by simp [hx]))]
      congr 1
      rw [Nat.mul_succ]; omega

theorem flatten_length {rows : List (List α)} {npe : Nat} (h : ∀ r ∈ rows, r.length = npe) :
    rows.flatten.length = npe * rows.length := by
  induction rows with
  | nil => simp
  | cons r rows ih =>
    simp only [List.flatten_cons, List.length_append, List.length_cons]
    rw [h r (by simp), ih (fun x hx => h x (by simp [hx])), Nat.mul_succ]; omega

theorem mul_add_lt {npe c k n : Nat} (hk : k < npe) (hc : c < n) : npe * c + k < n * npe := by
  calc npe * c + k < npe * c + npe := by omega
    _ = npe * (c + 1) := by rw [Nat.mul_succ]
    _ ≤ npe * n := Nat.mul_le_mul_left _ hc
    _ = n * npe := Nat.mul_comm _ _

/-- What `ShuffleConnectivity` does to the entry of new cell `i`, local node `k`. -/
theorem shuffleConnectivity_spec {o2n n2o conn r : List Nat} {npe : Nat}
    (h : shuffleConnectivity o2n n2o npe conn = some r) :
    r.length = conn.length ∧
    (∀ (i c k : Nat), n2o[i]? = some c → c < n2o.length → k < npe →
      ∃ nid m, conn[npe * c + k]? = some nid ∧ nid ≠ 0 ∧ o2n[nid - 1]? = some m ∧
        r[npe * i + k]? = some (m + 1)) := by
  simp only [shuffleConnectivity] at h
  split at h
  swap
  · simp at h
  rename_i hle
  simp only [Option.bind_eq_bind, Option.bind_eq_some_iff] at h
  obtain ⟨ren, hren, new, hnew, hr⟩ := h
  simp only [permuteRows, Option.bind_eq_bind, Option.pure_def, Option.bind_eq_some_iff,
    Option.some.injEq] at hnew
  obtain ⟨rows, hrows, rfl⟩ := hnew
  have hrowlen : ∀ row ∈ rows, row.length = npe := by
    intro row hrow
    obtain ⟨i, hi, rfl⟩ := List.getElem_of_mem hrow
    have hi' : i < n2o.length := by rw [← mapM_length hrows]; exact hi
    have := mapM_get hrows (i := i) (a := n2o[i]) (by simp [hi'])
    rw [List.getElem?_eq_getElem hi] at this
    have := (gather_spec this.symm).1
    simpa using this
  obtain ⟨hfit, hrl, hin, -⟩ := overwrite_spec hr
  refine ⟨hrl, ?_⟩
  intro i c k hic hc hk
  have hi : i < n2o.length := (List.getElem?_eq_some_iff.1 hic).1
  have hrl' : rows.length = n2o.length := mapM_length hrows
  have hflat : rows.flatten.length = npe * rows.length := flatten_length hrowlen
  have hpos : npe * i + k < rows.flatten.length := by
    rw [hflat, hrl', Nat.mul_comm npe n2o.length]; exact mul_add_lt hk hi
  have hrow := mapM_get hrows hic
  have hri : rows[i]? = some rows[i] := by simp [hrl', hi]
  rw [hri] at hrow
  have hentry := (gather_spec hrow.symm).2 k k (by simp [hk])
  have e1 : r[npe * i + k]? = ren[npe * c + k]? := by
    have := hin (npe * i + k) hpos
    rw [Nat.zero_add] at this
    rw [this, flatten_get hrowlen hk, hri, Option.bind_some, hentry]
  have hck : npe * c + k < n2o.length * npe := mul_add_lt hk hc
  have hcl : npe * c + k < conn.length := by omega
  have htake : (conn.take (n2o.length * npe))[npe * c + k]? = some conn[npe * c + k] := by
    rw [List.getElem?_take_of_lt hck]; simp [hcl]
  have e2 := mapM_get hren htake
  have hrenlen := mapM_length hren
  have hlt : npe * c + k < ren.length := by rw [hrenlen]; simp; omega
  rw [List.getElem?_eq_getElem hlt] at e2
  by_cases h0 : conn[npe * c + k] = 0
  · rw [if_pos h0] at e2; simp at e2
  · rw [if_neg h0] at e2
    obtain ⟨m, hm, hm'⟩ := Option.map_eq_some_iff.1 e2.symm
    refine ⟨conn[npe * c + k], m, by simp [hcl], h0, hm, ?_⟩
    rw [e1, List.getElem?_eq_getElem hlt, hm']

theorem shuffleConnectivity_isSome {o2n n2o conn : List Nat} {npe : Nat}
    (hn : ∀ nid ∈ conn, 1 ≤ nid ∧ nid ≤ o2n.length) (hl : n2o.length * npe ≤ conn.length)
    (hc : ∀ c ∈ n2o, c < n2o.length) :
    ∃ r, shuffleConnectivity o2n n2o npe conn = some r := by
  have h1 : ∃ ren, renumber o2n (conn.take (n2o.length * npe)) = some ren := by
    refine mapM_isSome (fun nid hnid => ?_)
    obtain ⟨ha, hb⟩ := hn nid (List.mem_of_mem_take hnid)
    rw [if_neg (by omega)]
    have : nid - 1 < o2n.length := by omega
    simp [this]
  obtain ⟨ren, hren⟩ := h1
  have hrl : ren.length = n2o.length * npe := by
    rw [mapM_length hren]; simp; omega
  have h2 : ∃ rows, n2o.mapM (fun c => gather (npe * c) (List.range npe) ren) = some rows := by
    refine mapM_isSome (fun c hcm => ?_)
    obtain ⟨g, hg⟩ := gather_isSome (off := npe * c) (idx := List.range npe) (data := ren)
      (fun k hk => by rw [hrl]; exact mul_add_lt (by simpa using hk) (hc c hcm))
    simp [hg]
  obtain ⟨rows, hrows⟩ := h2
  have hrowlen : ∀ row ∈ rows, row.length = npe := by
    intro row hrow
    obtain ⟨i, hi, rfl⟩ := List.getElem_of_mem hrow
    have hi' : i < n2o.length := by rw [← mapM_length hrows]; exact hi
    have := mapM_get hrows (i := i) (a := n2o[i]) (by simp [hi'])
    rw [List.getElem?_eq_getElem hi] at this
    simpa using (gather_spec this.symm).1
  have hfl : rows.flatten.length = n2o.length * npe := by
    rw [flatten_length hrowlen, mapM_length hrows, Nat.mul_comm]
  obtain ⟨r, hr⟩ := overwrite_isSome (off := 0) (new := rows.flatten) (data := conn)
    (by rw [hfl]; omega)
  refine ⟨r, ?_⟩
  simp only [shuffleConnectivity]
  rw [if_pos hl]
  simp [hren, permuteRows, hrows, hr]

end MiniCFD.Shuffle
