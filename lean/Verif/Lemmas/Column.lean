import Verif.Spec.Column
import Mathlib.Data.List.Nodup
import Mathlib.Tactic.Common

namespace MiniCFD.Column
open MiniCFD.Spec.Column

/-! ### the order of numbering -/

theorem mem_positions (b : Bool) : ∀ (l : List Bool) (i p : Nat),
    p ∈ positions b l i ↔ ∃ j, p = i + j ∧ l[j]? = some b := by
  intro l
  induction l with
  | nil => intro i p; simp [positions]
  | cons c cs ih =>
    intro i p
    simp only [positions]
    have key : (∃ j, p = i + 1 + j ∧ cs[j]? = some b) ↔
        ∃ j, p = i + (j + 1) ∧ (c :: cs)[j + 1]? = some b := by
      simp only [List.getElem?_cons_succ]
      constructor <;> rintro ⟨j, h1, h2⟩ <;> exact ⟨j, by omega, h2⟩
    split
    · rename_i h
      rw [List.mem_cons, ih, key]
      constructor
      · rintro (h1 | ⟨j, h1, h2⟩)
        · exact ⟨0, by omega, by simp [h]⟩
        · exact ⟨j + 1, h1, h2⟩
      · rintro ⟨j, h1, h2⟩
        cases j with
        | zero => exact Or.inl (by omega)
        | succ j => exact Or.inr ⟨j, h1, h2⟩
    · rename_i h
      rw [ih, key]
      constructor
      · rintro ⟨j, h1, h2⟩; exact ⟨j + 1, h1, h2⟩
      · rintro ⟨j, h1, h2⟩
        cases j with
        | zero => simp at h2; exact absurd h2 h
        | succ j => exact ⟨j, h1, h2⟩

theorem positions_nodup (b : Bool) : ∀ (l : List Bool) (i : Nat), (positions b l i).Nodup := by
  intro l
  induction l with
  | nil => intro i; simp [positions]
  | cons c cs ih =>
    intro i
    simp only [positions]
    split
    · rw [List.nodup_cons]
      refine ⟨?_, ih _⟩
      rw [mem_positions]
      rintro ⟨j, h, _⟩
      omega
    · exact ih _

theorem pointers_nodup (inter : List Bool) : (pointers inter).Nodup := by
  unfold pointers
  rw [List.nodup_append]
  refine ⟨positions_nodup _ _ _, positions_nodup _ _ _, ?_⟩
  intro a ha b hb e
  rw [mem_positions] at ha hb
  obtain ⟨j, h1, h2⟩ := ha
  obtain ⟨j', h3, h4⟩ := hb
  have : j = j' := by omega
  subst this
  rw [h2] at h4
  simp at h4

theorem mem_pointers (inter : List Bool) (p : Nat) : p ∈ pointers inter ↔ p < inter.length := by
  unfold pointers
  rw [List.mem_append, mem_positions, mem_positions]
  constructor
  · rintro (⟨j, h1, h2⟩ | ⟨j, h1, h2⟩) <;>
    · obtain ⟨h3, _⟩ := List.getElem?_eq_some_iff.1 h2
      omega
  · intro h
    cases hb : inter[p]'h with
    | false => exact Or.inl ⟨p, by omega, by rw [List.getElem?_eq_getElem h, hb]⟩
    | true => exact Or.inr ⟨p, by omega, by rw [List.getElem?_eq_getElem h, hb]⟩

/-! ### numbering -/

/-- Where the block of each pointer starts. -/
def offsetsFrom (sizes : List Nat) : Nat → List Nat → List Nat
  | _, [] => []
  | k, p :: ps => k :: offsetsFrom sizes (k + (sizes[p]?).getD 0) ps

def totalFrom (sizes : List Nat) : Nat → List Nat → Nat
  | k, [] => k
  | k, p :: ps => totalFrom sizes (k + (sizes[p]?).getD 0) ps

theorem offsetsFrom_length (sizes : List Nat) (ps : List Nat) (k : Nat) :
    (offsetsFrom sizes k ps).length = ps.length := by
  induction ps generalizing k with
  | nil => rfl
  | cons p ps ih => simp [offsetsFrom, ih]

theorem le_totalFrom (sizes : List Nat) (ps : List Nat) (k : Nat) : k ≤ totalFrom sizes k ps := by
  induction ps generalizing k with
  | nil => exact Nat.le_refl _
  | cons p ps ih => exact Nat.le_trans (Nat.le_add_right _ _) (ih _)

theorem offsetsFrom_get (sizes : List Nat) : ∀ (ps : List Nat) (k i p : Nat), ps[i]? = some p →
    ∃ o, (offsetsFrom sizes k ps)[i]? = some o ∧ k ≤ o ∧
      o + (sizes[p]?).getD 0 ≤ totalFrom sizes k ps ∧
      ∀ j q o', i < j → ps[j]? = some q → (offsetsFrom sizes k ps)[j]? = some o' →
        o + (sizes[p]?).getD 0 ≤ o' := by
  intro ps
  induction ps with
  | nil => intro k i p h; simp at h
  | cons a ps ih =>
    intro k i p h
    cases i with
    | zero =>
      simp only [List.getElem?_cons_zero, Option.some.injEq] at h
      subst h
      refine ⟨k, rfl, Nat.le_refl _, le_totalFrom _ _ _, ?_⟩
      intro j q o' hj hq ho
      obtain ⟨j, rfl⟩ : ∃ j', j = j' + 1 := ⟨j - 1, by omega⟩
      simp only [List.getElem?_cons_succ, offsetsFrom] at hq ho
      obtain ⟨o, h1, h2, _⟩ := ih (k + (sizes[a]?).getD 0) j q hq
      rw [ho] at h1
      simp only [Option.some.injEq] at h1
      omega
    | succ i =>
      simp only [List.getElem?_cons_succ] at h
      obtain ⟨o, h1, h2, h3, h4⟩ := ih (k + (sizes[a]?).getD 0) i p h
      refine ⟨o, by simpa [offsetsFrom] using h1, by omega, h3, ?_⟩
      intro j q o' hj hq ho
      obtain ⟨j, rfl⟩ : ∃ j', j = j' + 1 := ⟨j - 1, by omega⟩
      simp only [List.getElem?_cons_succ, offsetsFrom] at hq ho
      exact h4 j q o' (by omega) hq ho

theorem offsetsFrom_cover (sizes : List Nat) : ∀ (ps : List Nat) (k x : Nat), k ≤ x →
    x < totalFrom sizes k ps → ∃ (i p o : Nat), ps[i]? = some p ∧
      (offsetsFrom sizes k ps)[i]? = some o ∧ o ≤ x ∧ x < o + (sizes[p]?).getD 0 := by
  intro ps
  induction ps with
  | nil => intro k x h1 h2; simp only [totalFrom] at h2; omega
  | cons a ps ih =>
    intro k x h1 h2
    by_cases h : x < k + (sizes[a]?).getD 0
    · exact ⟨0, a, k, rfl, rfl, h1, h⟩
    · obtain ⟨i, p, o, h3, h4, h5⟩ := ih (k + (sizes[a]?).getD 0) x (by omega) h2
      exact ⟨i + 1, p, o, by simpa using h3, by simpa [offsetsFrom] using h4, h5⟩

theorem numberLoop_spec (sizes : List Nat) : ∀ (ps : List Nat) (id : Nat) (ids offs : List Nat)
    (k : Nat), ps.Nodup → (∀ p ∈ ps, p < sizes.length) → ids.length = sizes.length →
    offs.getLast? = some k →
    ∃ ids', numberLoop sizes ps id ids offs =
        some (ids', offs ++ (offsetsFrom sizes k ps ++ [totalFrom sizes k ps]).tail) ∧
      ids'.length = sizes.length ∧
      (∀ (i p : Nat), ps[i]? = some p → ids'[p]? = some (id + i)) ∧
      (∀ p, p ∉ ps → ids'[p]? = ids[p]?) := by
  intro ps
  induction ps with
  | nil =>
    intro id ids offs k _ _ hl _
    exact ⟨ids, by simp [numberLoop, offsetsFrom], hl, by simp, by simp⟩
  | cons a ps ih =>
    intro id ids offs k hn hm hl hk
    rw [List.nodup_cons] at hn
    have ha := hm a (by simp)
    obtain ⟨s, hs⟩ : ∃ s, sizes[a]? = some s := ⟨_, List.getElem?_eq_getElem ha⟩
    obtain ⟨ids', h1, h2, h3, h4⟩ := ih (id + 1) (ids.set a id) (offs ++ [k + s]) (k + s) hn.2
      (fun p hp => hm p (by simp [hp])) (by simpa using hl) (by simp)
    refine ⟨ids', ?_, h2, ?_, ?_⟩
    · simp only [numberLoop, hs, hk, Option.bind_eq_bind, Option.bind_some]
      rw [if_pos (by omega), h1]
      simp only [offsetsFrom, totalFrom, hs, Option.getD_some]
      cases ps with
      | nil => simp [offsetsFrom, totalFrom]
      | cons b ps => simp [offsetsFrom, totalFrom]
    · intro i p hp
      cases i with
      | zero =>
        simp only [List.getElem?_cons_zero, Option.some.injEq] at hp
        subst hp
        rw [h4 a hn.1, List.getElem?_set_self (by omega)]; simp
      | succ i =>
        rw [h3 i p (by simpa using hp)]; congr 1; omega
    · intro p hp
      rw [List.mem_cons, not_or] at hp
      rw [h4 p hp.2, List.getElem?_set_ne (fun e => hp.1 e.symm)]

/-- The numbering computed by `AddLocalCellId` lays blocks out without gap or overlap. -/
theorem numbering_layout (inter : List Bool) (sizes : List Nat)
    (hl : inter.length = sizes.length) :
    ∃ ids offs off total, addLocalCellId inter sizes = some (ids, offs) ∧
      Layout sizes off total ∧ total = sizes.sum ∧
      (∀ p, p < sizes.length → Numbering.offset ⟨inter, ids, offs⟩ p = some (off p)) ∧
      Numbering.size ⟨inter, ids, offs⟩ = some total := by
  have hm : ∀ p ∈ pointers inter, p < sizes.length := by
    intro p hp; rw [mem_pointers] at hp; omega
  obtain ⟨ids, h1, h2, h3, _⟩ := numberLoop_spec sizes (pointers inter) 0
    (List.replicate sizes.length 0) [0] 0 (pointers_nodup inter) hm (by simp) rfl
  have hoffs : [0] ++ (offsetsFrom sizes 0 (pointers inter) ++
      [totalFrom sizes 0 (pointers inter)]).tail =
      offsetsFrom sizes 0 (pointers inter) ++ [totalFrom sizes 0 (pointers inter)] := by
    cases hp : pointers inter with
    | nil => simp [offsetsFrom, totalFrom]
    | cons a ps => simp [offsetsFrom]
  rw [hoffs] at h1
  have hidx : ∀ p, p < sizes.length → ∃ i : Nat, (pointers inter)[i]? = some p := by
    intro p hp
    exact List.mem_iff_getElem?.1 ((mem_pointers inter p).2 (by omega))
  -- offset of a pointer
  have hoff : ∀ (i p : Nat), (pointers inter)[i]? = some p →
      Numbering.offset ⟨inter, ids, offsetsFrom sizes 0 (pointers inter) ++
        [totalFrom sizes 0 (pointers inter)]⟩ p =
      (offsetsFrom sizes 0 (pointers inter))[i]? := by
    intro i p hp
    obtain ⟨hi, _⟩ := List.getElem?_eq_some_iff.1 hp
    simp only [Numbering.offset, h3 i p hp, Option.bind_eq_bind, Option.bind_some, Nat.zero_add]
    rw [List.getElem?_append_left (by rw [offsetsFrom_length]; exact hi)]
  refine ⟨ids, _, fun p => (Numbering.offset ⟨inter, ids, offsetsFrom sizes 0 (pointers inter) ++
        [totalFrom sizes 0 (pointers inter)]⟩ p).getD 0, totalFrom sizes 0 (pointers inter), h1,
    ⟨?_, ?_, ?_⟩, ?_, ?_, ?_⟩
  · intro p s hs
    obtain ⟨hp, _⟩ := List.getElem?_eq_some_iff.1 hs
    obtain ⟨i, hi⟩ := hidx p hp
    obtain ⟨o, ho, _, ho3, _⟩ := offsetsFrom_get sizes _ 0 i p hi
    rw [hoff i p hi, ho]
    rw [hs] at ho3
    simpa using ho3
  · intro p q s t hs ht hpq
    obtain ⟨hp, _⟩ := List.getElem?_eq_some_iff.1 hs
    obtain ⟨hq, _⟩ := List.getElem?_eq_some_iff.1 ht
    obtain ⟨i, hi⟩ := hidx p hp
    obtain ⟨j, hj⟩ := hidx q hq
    obtain ⟨o, ho, _, _, ho4⟩ := offsetsFrom_get sizes _ 0 i p hi
    obtain ⟨o', ho', _, _, ho4'⟩ := offsetsFrom_get sizes _ 0 j q hj
    rw [hoff i p hi, ho, hoff j q hj, ho']
    rw [hs] at ho4
    rw [ht] at ho4'
    rcases Nat.lt_trichotomy i j with h | h | h
    · exact Or.inl (ho4 j q o' h hj ho')
    · subst h
      rw [hi] at hj
      simp only [Option.some.injEq] at hj
      exact absurd hj hpq
    · exact Or.inr (ho4' i p o h hi ho)
  · intro x hx
    obtain ⟨i, p, o, hp, ho, h5, h6⟩ := offsetsFrom_cover sizes _ 0 x (Nat.zero_le _) hx
    have hpl := hm p (List.mem_of_getElem? hp)
    refine ⟨p, sizes[p], List.getElem?_eq_getElem hpl, ?_⟩
    rw [hoff i p hp, ho]
    rw [List.getElem?_eq_getElem hpl] at h6
    exact ⟨h5, h6⟩
  · -- the total
    have key : ∀ (ps : List Nat) (k : Nat),
        totalFrom sizes k ps = k + (ps.map (fun p => (sizes[p]?).getD 0)).sum := by
      intro ps
      induction ps with
      | nil => intro k; simp [totalFrom]
      | cons a ps ih => intro k; simp only [totalFrom, ih, List.map_cons, List.sum_cons]; omega
    rw [key, Nat.zero_add]
    have hperm : (pointers inter).Perm (List.range sizes.length) := by
      rw [List.perm_ext_iff_of_nodup (pointers_nodup inter) List.nodup_range]
      intro p; rw [mem_pointers, List.mem_range, hl]
    rw [(hperm.map _).sum_nat]
    congr 1
    apply List.ext_getElem
    · simp
    · intro i h1 h2
      simp only [List.getElem_map, List.getElem_range]
      rw [List.getElem?_eq_getElem h2]; rfl
  · intro p hp
    obtain ⟨i, hi⟩ := hidx p hp
    obtain ⟨o, ho, _⟩ := offsetsFrom_get sizes _ 0 i p hi
    simp only [hoff i p hi, ho, Option.getD_some]
  · simp only [Numbering.size]
    rw [List.length_append, List.length_singleton, Nat.add_sub_cancel,
      List.getElem?_concat_length]

/-! ### reading and writing blocks -/

variable {R : Type}

theorem readAt_get {col d : List R} {off len : Nat} (h : readAt col off len = some d) :
    off + len ≤ col.length ∧ d.length = len ∧ ∀ j, j < len → d[j]? = col[off + j]? := by
  unfold readAt at h
  split at h
  · rename_i hl
    simp only [Option.some.injEq] at h
    subst h
    refine ⟨hl, by simp; omega, ?_⟩
    intro j hj
    rw [List.getElem?_take_of_lt hj, List.getElem?_drop]
  · simp at h

theorem writeAt_some {col data : List R} {off : Nat} (h : off + data.length ≤ col.length) :
    ∃ c, writeAt col off data = some c ∧ c.length = col.length ∧
      ∀ x, c[x]? = if off ≤ x ∧ x < off + data.length then data[x - off]? else col[x]? := by
  refine ⟨_, if_pos h, by simp; omega, ?_⟩
  intro x
  by_cases h1 : x < off
  · rw [if_neg (by omega), List.append_assoc, List.getElem?_append_left (by simp; omega),
      List.getElem?_take_of_lt h1]
  · by_cases h2 : x < off + data.length
    · rw [if_pos (by omega), List.append_assoc, List.getElem?_append_right (by simp; omega),
        List.getElem?_append_left (by simp; omega)]
      congr 1
      simp; omega
    · rw [if_neg (by omega), List.getElem?_append_right (by simp; omega), List.getElem?_drop]
      congr 1
      simp; omega


theorem setLoop_spec {n : Numbering} {col : List R} {sizes : List Nat} {off : Nat → Nat}
    {total : Nat} (hL : Layout sizes off total)
    (ho : ∀ p, p < sizes.length → n.offset p = some (off p)) (hc : col.length = total) :
    ∀ (ps : List Nat) (cells : List (List R)), ps.Nodup → (∀ p ∈ ps, p < sizes.length) →
      cells.map List.length = sizes →
      ∃ cells', setLoop n col ps cells = some cells' ∧ cells'.map List.length = sizes ∧
        (∀ (p : Nat) c, p ∈ ps → cells'[p]? = some c → ∀ j, j < c.length →
          c[j]? = col[off p + j]?) ∧
        (∀ p, p ∉ ps → cells'[p]? = cells[p]?) := by
  intro ps
  induction ps with
  | nil => intro cells _ _ hs; exact ⟨cells, rfl, hs, by simp, by simp⟩
  | cons a ps ih =>
    intro cells hn hm hs
    rw [List.nodup_cons] at hn
    have ha := hm a (by simp)
    have hal : a < cells.length := by rw [← hs] at ha; simpa using ha
    obtain ⟨old, hold⟩ : ∃ old, cells[a]? = some old := ⟨_, List.getElem?_eq_getElem hal⟩
    have hsz : sizes[a]? = some old.length := by rw [← hs, List.getElem?_map, hold]; rfl
    have hfit := hL.fits a _ hsz
    have hr : readAt col (off a) old.length = some ((col.drop (off a)).take old.length) :=
      if_pos (by omega)
    obtain ⟨_, hr2, hr3⟩ := readAt_get hr
    have hset : (cells.set a ((col.drop (off a)).take old.length)).map List.length = sizes := by
      rw [List.map_set, hr2, hs]
      apply List.ext_getElem?
      intro i
      rw [List.getElem?_set]
      split
      · rename_i e
        subst e
        rw [hsz]
      · rfl
    obtain ⟨cells', h1, h2, h3, h4⟩ := ih _ hn.2 (fun p hp => hm p (by simp [hp])) hset
    refine ⟨cells', ?_, h2, ?_, ?_⟩
    · simp only [setLoop, ho a ha, hold, hr, Option.bind_eq_bind, Option.bind_some]
      exact h1
    · intro p c hp hpc
      rcases List.mem_cons.1 hp with rfl | hp
      · rw [h4 p hn.1, List.getElem?_set_self hal] at hpc
        simp only [Option.some.injEq] at hpc
        subst hpc
        rw [hr2]; exact hr3
      · exact h3 p c hp hpc
    · intro p hp
      rw [List.mem_cons, not_or] at hp
      rw [h4 p hp.2, List.getElem?_set_ne (fun e => hp.1 e.symm)]

theorem getLoop_spec {n : Numbering} {sizes : List Nat} {off : Nat → Nat}
    {total : Nat} (hL : Layout sizes off total)
    (ho : ∀ p, p < sizes.length → n.offset p = some (off p)) :
    ∀ (cs : List (List R)) (p : Nat) (col : List R), col.length = total →
      (∀ (j : Nat) c, cs[j]? = some c → sizes[p + j]? = some c.length) →
      ∃ col', getLoop n cs p col = some col' ∧ col'.length = total ∧
        (∀ (j : Nat) c, cs[j]? = some c → ∀ x, x < c.length → col'[off (p + j) + x]? = c[x]?) ∧
        (∀ y, (∀ (j : Nat) c, cs[j]? = some c →
          ¬ (off (p + j) ≤ y ∧ y < off (p + j) + c.length)) → col'[y]? = col[y]?) := by
  intro cs
  induction cs with
  | nil => intro p col hc _; exact ⟨col, rfl, hc, by simp, by simp⟩
  | cons a cs ih =>
    intro p col hc hs
    have hsa : sizes[p]? = some a.length := hs 0 a rfl
    obtain ⟨hp, _⟩ := List.getElem?_eq_some_iff.1 hsa
    have hfit := hL.fits p _ hsa
    obtain ⟨c1, hw, hwl, hwg⟩ := writeAt_some (col := col) (data := a) (off := off p) (by omega)
    have hs' : ∀ (j : Nat) c, cs[j]? = some c → sizes[p + 1 + j]? = some c.length := by
      intro j c hj
      rw [show p + 1 + j = p + (j + 1) by omega]
      exact hs (j + 1) c (by simpa using hj)
    obtain ⟨col', h1, h2, h3, h4⟩ := ih (p + 1) c1 (by omega) hs'
    refine ⟨col', ?_, h2, ?_, ?_⟩
    · simp only [getLoop, ho p hp, hw, Option.bind_eq_bind, Option.bind_some]; exact h1
    · intro j c hj x hx
      cases j with
      | zero =>
        simp only [List.getElem?_cons_zero, Option.some.injEq] at hj
        subst hj
        rw [Nat.add_zero, h4]
        · rw [hwg, if_pos ⟨by omega, by omega⟩]; congr 1; omega
        · intro j c hj
          rcases hL.disjoint p (p + 1 + j) _ _ hsa (hs' j c hj) (by omega) with h | h <;> omega
      | succ j =>
        rw [show p + (j + 1) = p + 1 + j by omega]
        exact h3 j c (by simpa using hj) x hx
    · intro y hy
      rw [h4, hwg, if_neg (by have := hy 0 a rfl; simpa using this)]
      intro j c hj
      have := hy (j + 1) c (by simpa using hj)
      rwa [show p + (j + 1) = p + 1 + j by omega] at this

theorem accumulate_spec [AddMonoid R] {n : Numbering} {sizes : List Nat} {off : Nat → Nat}
    {total : Nat} (hL : Layout sizes off total)
    (ho : ∀ p, p < sizes.length → n.offset p = some (off p)) :
    ∀ (cs : List (Contribution R)) (col : List R), col.length = total →
      (∀ c ∈ cs, ∃ s, sizes[c.cell]? = some s ∧ c.shift + c.data.length ≤ s) →
      ∃ col', accumulate n cs col = some col' ∧ col'.length = total ∧
        ∀ (p s : Nat), sizes[p]? = some s → ∀ j, j < s →
          col'[off p + j]? = (col[off p + j]?).map (· + (cs.map (amount p j)).sum) := by
  intro cs
  induction cs with
  | nil =>
    intro col hc _
    refine ⟨col, rfl, hc, ?_⟩
    intro p s _ j _
    cases col[off p + j]? <;> simp
  | cons a cs ih =>
    intro col hc hs
    obtain ⟨s, hsa, hfit⟩ := hs a (by simp)
    obtain ⟨hp, _⟩ := List.getElem?_eq_some_iff.1 hsa
    have hf := hL.fits a.cell s hsa
    have hr : readAt col (off a.cell + a.shift) a.data.length =
      some ((col.drop (off a.cell + a.shift)).take a.data.length) := if_pos (by omega)
    obtain ⟨_, hr2, hr3⟩ := readAt_get hr
    generalize hd : (col.drop (off a.cell + a.shift)).take a.data.length = old at *
    have hzl : (List.zipWith (· + ·) old a.data).length = a.data.length := by simp [hr2]
    obtain ⟨c1, hw, hwl, hwg⟩ := writeAt_some (col := col)
      (data := List.zipWith (· + ·) old a.data) (off := off a.cell + a.shift) (by omega)
    obtain ⟨col', h1, h2, h3⟩ := ih c1 (by omega) (fun c hc' => hs c (by simp [hc']))
    refine ⟨col', ?_, h2, ?_⟩
    · simp only [accumulate, ho _ hp, addAt, hr, hw, Option.bind_eq_bind, Option.bind_some]
      exact h1
    · intro p t ht j hj
      rw [h3 p t ht j hj, List.map_cons, List.sum_cons, hwg, hzl]
      have hpf := hL.fits p t ht
      by_cases e : p = a.cell
      · subst e
        rw [hsa] at ht
        simp only [Option.some.injEq] at ht
        subst ht
        by_cases hin : a.shift ≤ j ∧ j < a.shift + a.data.length
        · rw [if_pos ⟨by omega, by omega⟩]
          have hjd : j - a.shift < a.data.length := by omega
          have e1 : off a.cell + j - (off a.cell + a.shift) = j - a.shift := by omega
          have e2 : off a.cell + a.shift + (j - a.shift) = off a.cell + j := by omega
          rw [e1, List.getElem?_zipWith, hr3 _ hjd, e2]
          simp only [amount, hin.1, and_self, if_true]
          rw [List.getElem?_eq_getElem hjd]
          cases col[off a.cell + j]? <;> simp [add_assoc]
        · rw [if_neg (by omega)]
          have : amount a.cell j a = 0 := by
            unfold amount
            split
            · rename_i hh
              rw [List.getElem?_eq_none (by omega)]; rfl
            · rfl
          rw [this, zero_add]
      · have hne : ¬ (off a.cell + a.shift ≤ off p + j ∧
            off p + j < off a.cell + a.shift + a.data.length) := by
          rcases hL.disjoint p a.cell _ _ ht hsa e with h | h <;> omega
        rw [if_neg hne]
        have : amount p j a = 0 := by
          unfold amount; rw [if_neg (fun h => e h.1.symm)]
        rw [this, zero_add]

end MiniCFD.Column
