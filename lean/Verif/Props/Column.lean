import Verif.Lemmas.Column
import Mathlib.Algebra.Group.Int.Defs

namespace MiniCFD.Column
open MiniCFD.Spec.Column

variable {R : Type}

/-- C15. `AddLocalCellId` gives every cell, inner or inter, its own block of the column; blocks do
not overlap, leave no gap, and `GetCellDataSize` is their total size. -/
theorem blocks_tile_column (inter : List Bool) (sizes : List Nat)
    (hl : inter.length = sizes.length) :
    ∃ ids offs off, addLocalCellId inter sizes = some (ids, offs) ∧
      Layout sizes off sizes.sum ∧
      (∀ p, p < sizes.length → Numbering.offset ⟨inter, ids, offs⟩ p = some (off p)) ∧
      Numbering.size ⟨inter, ids, offs⟩ = some sizes.sum := by
  obtain ⟨ids, offs, off, total, h1, h2, h3, h4, h5⟩ := numbering_layout inter sizes hl
  subst h3
  exact ⟨ids, offs, off, h1, h2, h4, h5⟩

theorem setup {inter : List Bool} {sizes ids offs : List Nat} (hl : inter.length = sizes.length)
    (hn : addLocalCellId inter sizes = some (ids, offs)) :
    ∃ off, Layout sizes off sizes.sum ∧
      ∀ p, p < sizes.length → Numbering.offset ⟨inter, ids, offs⟩ p = some (off p) := by
  obtain ⟨ids', offs', off, h1, h2, h3, _⟩ := blocks_tile_column inter sizes hl
  rw [hn] at h1
  simp only [Option.some.injEq, Prod.mk.injEq] at h1
  obtain ⟨rfl, rfl⟩ := h1
  exact ⟨off, h2, h3⟩

/-- C15. `GetSolutionColumn` after `SetSolutionColumn(col)` returns `col`, for every column of the
right size, whatever the cells and the fresh column held before. -/
theorem get_after_set (inter : List Bool) (cells : List (List R)) (ids offs : List Nat)
    (hl : inter.length = cells.length)
    (hn : addLocalCellId inter (cells.map List.length) = some (ids, offs)) (col raw : List R)
    (hc : col.length = (cells.map List.length).sum)
    (hr : raw.length = (cells.map List.length).sum) :
    ∃ cells', setColumn ⟨inter, ids, offs⟩ col cells = some cells' ∧
      getColumn ⟨inter, ids, offs⟩ raw cells' = some col := by
  obtain ⟨off, hL, ho⟩ := setup (by simpa using hl) hn
  have hm : ∀ p ∈ pointers inter, p < (cells.map List.length).length := by
    intro p hp; rw [mem_pointers] at hp; simpa [hl] using hp
  obtain ⟨cells', h1, h2, h3, _⟩ := setLoop_spec hL ho hc (pointers inter) cells
    (pointers_nodup inter) hm rfl
  refine ⟨cells', h1, ?_⟩
  obtain ⟨col', h4, h5, h6, _⟩ := getLoop_spec hL ho cells' 0 raw hr (by
    intro j c hj
    rw [Nat.zero_add, ← h2, List.getElem?_map, hj]; rfl)
  have : col' = col := by
    apply List.ext_getElem?
    intro x
    by_cases hx : x < (cells.map List.length).sum
    · obtain ⟨p, s, hs, hx1, hx2⟩ := hL.cover x hx
      obtain ⟨hp, _⟩ := List.getElem?_eq_some_iff.1 hs
      rw [← h2, List.getElem?_map, Option.map_eq_some_iff] at hs
      obtain ⟨c, hc1, rfl⟩ := hs
      have e1 := h6 p c hc1 (x - off p) (by omega)
      have e2 := h3 p c ((mem_pointers inter p).2 (by rw [hl]; simpa using hp)) hc1 (x - off p)
        (by omega)
      rw [Nat.zero_add, show off p + (x - off p) = x by omega] at e1
      rw [show off p + (x - off p) = x by omega] at e2
      rw [e1, e2]
    · rw [List.getElem?_eq_none (by omega), List.getElem?_eq_none (by omega)]
  subst this
  exact h4

/-- C15. `SetSolutionColumn` of what `GetSolutionColumn` returned restores the cells, whatever
they hold by then. -/
theorem set_after_get (inter : List Bool) (cells other : List (List R)) (ids offs : List Nat)
    (hl : inter.length = cells.length)
    (hn : addLocalCellId inter (cells.map List.length) = some (ids, offs)) (raw : List R)
    (hr : raw.length = (cells.map List.length).sum)
    (hother : other.map List.length = cells.map List.length) :
    ∃ col, getColumn ⟨inter, ids, offs⟩ raw cells = some col ∧
      setColumn ⟨inter, ids, offs⟩ col other = some cells := by
  obtain ⟨off, hL, ho⟩ := setup (by simpa using hl) hn
  have hm : ∀ p ∈ pointers inter, p < (cells.map List.length).length := by
    intro p hp; rw [mem_pointers] at hp; simpa [hl] using hp
  obtain ⟨col, h4, h5, h6, _⟩ := getLoop_spec hL ho cells 0 raw hr (by
    intro j c hj
    rw [Nat.zero_add, List.getElem?_map, hj]; rfl)
  refine ⟨col, h4, ?_⟩
  obtain ⟨cells', h1, h2, h3, _⟩ := setLoop_spec hL ho h5 (pointers inter) other
    (pointers_nodup inter) hm hother
  have : cells' = cells := by
    have hlen : cells'.length = cells.length := by
      have := congrArg List.length h2; simpa using this
    apply List.ext_getElem hlen
    intro p hp hp'
    have g1 : cells'[p]? = some cells'[p] := List.getElem?_eq_getElem hp
    have g2 : cells[p]? = some cells[p] := List.getElem?_eq_getElem hp'
    have hsz : cells'[p].length = cells[p].length := by
      have := congrArg (fun l => l[p]?) h2
      simp only [List.getElem?_map, g1, g2, Option.map_some, Option.some.injEq] at this
      exact this
    apply List.ext_getElem?
    intro j
    by_cases hj : j < cells[p].length
    · rw [h3 p _ ((mem_pointers inter p).2 (by omega)) g1 j (by omega)]
      have := h6 p _ g2 j hj
      rw [Nat.zero_add] at this
      rw [this]
    · rw [List.getElem?_eq_none (by omega), List.getElem?_eq_none (by omega)]
  subst this
  exact h1

/-- C15. Any sequence of contributions (`AddCoeffTo`, `MinusCoeff`, `AddValueTo`, `MinusValue`)
that stay within their cell's block changes scalar `j` of cell `p` by the sum of what was
addressed to it, and by nothing that was addressed to other cells or other scalars. -/
theorem contributions_stay_in_block [AddMonoid R] (inter : List Bool) (sizes ids offs : List Nat)
    (hl : inter.length = sizes.length) (hn : addLocalCellId inter sizes = some (ids, offs))
    (cs : List (Contribution R)) (col : List R) (hc : col.length = sizes.sum)
    (hcs : ∀ c ∈ cs, ∃ s, sizes[c.cell]? = some s ∧ c.shift + c.data.length ≤ s) :
    ∃ col' off, accumulate ⟨inter, ids, offs⟩ cs col = some col' ∧ col'.length = col.length ∧
      Layout sizes off sizes.sum ∧
      (∀ p, p < sizes.length → Numbering.offset ⟨inter, ids, offs⟩ p = some (off p)) ∧
      ∀ (p s : Nat), sizes[p]? = some s → ∀ j, j < s →
        col'[off p + j]? = (col[off p + j]?).map (· + (cs.map (amount p j)).sum) := by
  obtain ⟨off, hL, ho⟩ := setup hl hn
  obtain ⟨col', h1, h2, h3⟩ := accumulate_spec hL ho cs col hc hcs
  exact ⟨col', off, h1, by omega, hL, ho, h3⟩

/-- Three cells, the first one shared with another part: it is numbered last. -/
example : addLocalCellId [true, false, false] [2, 1, 3] = some ([2, 0, 1], [0, 1, 4, 6]) := by
  decide

example : setColumn ⟨[true, false, false], [2, 0, 1], [0, 1, 4, 6]⟩ [10, 20, 21, 22, 30, 31]
    [[0, 0], [0], [0, 0, 0]] = some [[30, 31], [10], [20, 21, 22]] := by decide

example : ∃ cells', setColumn ⟨[true, false, false], [2, 0, 1], [0, 1, 4, 6]⟩
      [10, 20, 21, 22, 30, 31] [[0, 0], [0], [0, 0, 0]] = some cells' ∧
    getColumn ⟨[true, false, false], [2, 0, 1], [0, 1, 4, 6]⟩ [7, 7, 7, 7, 7, 7] cells' =
      some [10, 20, 21, 22, 30, 31] :=
  get_after_set _ _ _ _ rfl (by decide) _ _ rfl rfl

example : accumulate (R := Int) ⟨[true, false, false], [2, 0, 1], [0, 1, 4, 6]⟩
    [⟨0, 0, [1, 2]⟩, ⟨2, 1, [5]⟩, ⟨0, 1, [-1]⟩] [0, 0, 0, 0, 0, 0] =
    some [0, 0, 5, 0, 1, 1] := by decide

end MiniCFD.Column
