import Verif.Spec.Reconstruct
import Mathlib.Data.List.Nodup
import Mathlib.Tactic.Common

/-
C09: how the limiter pass depends on the partition.
-/
namespace MiniCFD.Reconstruct
open MiniCFD.Spec.Reconstruct

variable {V : Type}

theorem writeBack_spec (f : Nat → V) : ∀ (cs : List Nat) (s : Nat → V) (d : Nat),
    writeBack cs (cs.map f) s d = if d ∈ cs then f d else s d := by
  intro cs
  induction cs with
  | nil => intro s d; simp [writeBack]
  | cons c cs ih =>
    intro s d
    simp only [List.map_cons, writeBack]
    rw [ih]
    by_cases h : d ∈ cs
    · simp [h]
    · by_cases hd : d = c
      · subst hd; simp [h]
      · simp [h, hd]

theorem limitGroup_spec (trouble : Nat → (Nat → V) → Bool) (lim : Nat → (Nat → V) → V)
    (cells : List Nat) (s : Nat → V) (d : Nat) :
    limitGroup trouble lim cells s d =
      if d ∈ cells then (if trouble d s then lim d s else s d) else s d := by
  unfold limitGroup
  rw [writeBack_spec (fun c => lim c s)]
  by_cases h : d ∈ cells
  · by_cases ht : trouble d s = true
    · simp [h, ht]
    · simp [h, ht]
  · simp [h]

/-- With a single part the pass is the one on the whole mesh. -/
theorem reconstruct_serial {degrees : Nat} (hd : degrees ≠ 0) (trouble : Nat → (Nat → V) → Bool)
    (lim : Nat → (Nat → V) → V) (cells : List Nat) (recv s : Nat → V) (c : Nat) (hc : c ∈ cells) :
    reconstruct degrees trouble lim cells [] [] recv s c = whole trouble lim s c := by
  simp only [reconstruct, if_neg hd, limitGroup_spec, setGhosts, whole]
  simp [hc]

/-- On any partition: inner cells get the value of the serial pass; an inter cell does so too
when none of its inner neighbours is troubled. (The general claim "every cell gets the value of
the serial pass" is false, see `reconstruct_depends_on_partition`.) -/
theorem reconstruct_parallel_partial {degrees : Nat} (hd : degrees ≠ 0) {nbr : Nat → List Nat}
    {trouble : Nat → (Nat → V) → Bool} {lim : Nat → (Nat → V) → V} (hl : Local nbr trouble lim)
    {inner inter ghosts : List Nat} (hg : Groups nbr inner inter ghosts) (old s : Nat → V)
    (hs : ∀ c, c ∈ inner ∨ c ∈ inter → s c = old c) :
    (∀ c ∈ inner, reconstruct degrees trouble lim inner inter ghosts old s c =
      whole trouble lim old c) ∧
    (∀ c ∈ inter, (∀ j ∈ nbr c, j ∈ inner → trouble j old = false) →
      reconstruct degrees trouble lim inner inter ghosts old s c = whole trouble lim old c) := by
  have hin : ∀ c ∈ inner, trouble c s = trouble c old ∧ lim c s = lim c old := by
    intro c hc
    refine hl c s old (hs c (Or.inl hc)) (fun j hj => hs j (hg.innerNbr c hc j hj))
  have hs1 : ∀ c ∈ inner, limitGroup trouble lim inner s c = whole trouble lim old c := by
    intro c hc
    rw [limitGroup_spec, if_pos hc]
    unfold whole
    rw [(hin c hc).1, (hin c hc).2, hs c (Or.inl hc)]
  constructor
  · intro c hc
    simp only [reconstruct, if_neg hd]
    rw [limitGroup_spec, if_neg (hg.disj c hc)]
    unfold setGhosts
    rw [if_neg (hg.noGhost c (Or.inl hc))]
    exact hs1 c hc
  · intro c hc hno
    have hnin : c ∉ inner := fun h => hg.disj c h hc
    simp only [reconstruct, if_neg hd]
    rw [limitGroup_spec, if_pos hc]
    generalize hs2 : setGhosts ghosts old (limitGroup trouble lim inner s) = s2
    have hc2 : s2 c = old c := by
      rw [← hs2]; unfold setGhosts
      rw [if_neg (hg.noGhost c (Or.inr hc)), limitGroup_spec, if_neg hnin, hs c (Or.inr hc)]
    have hj2 : ∀ j ∈ nbr c, s2 j = old j := by
      intro j hj
      rw [← hs2]; unfold setGhosts
      split
      · rfl
      · rename_i hng
        rcases hg.interNbr c hc j hj with h | h | h
        · rw [hs1 j h]; unfold whole; rw [hno j hj h]; simp
        · rw [limitGroup_spec, if_neg (fun h' => hg.disj j h' h), hs j (Or.inr h)]
        · exact absurd h hng
    obtain ⟨h1, h2⟩ := hl c s2 old hc2 hj2
    unfold whole
    rw [h1, h2, hc2]

/-- Any quantity of a cell that the limiter keeps (such as its average) comes out the same on
every partition: it is left unchanged. -/
theorem reconstruct_keeps {A : Type} (avg : V → A) {degrees : Nat}
    {trouble : Nat → (Nat → V) → Bool} {lim : Nat → (Nat → V) → V}
    (hk : ∀ c s, avg (lim c s) = avg (s c)) {nbr : Nat → List Nat}
    {inner inter ghosts : List Nat} (hg : Groups nbr inner inter ghosts) (recv s : Nat → V)
    (c : Nat) (hc : c ∈ inner ∨ c ∈ inter) :
    avg (reconstruct degrees trouble lim inner inter ghosts recv s c) = avg (s c) := by
  by_cases hd : degrees = 0
  · simp [reconstruct, hd]
  have hgrp : ∀ (cells : List Nat) (s : Nat → V) d, avg (limitGroup trouble lim cells s d) = avg (s d) := by
    intro cells s d
    rw [limitGroup_spec]
    split
    · split
      · exact hk d s
      · rfl
    · rfl
  simp only [reconstruct, if_neg hd]
  rw [hgrp]
  unfold setGhosts
  rw [if_neg (hg.noGhost c hc), hgrp]

/-- Cells that are not local keep what they had, except that ghosts are refreshed. -/
theorem reconstruct_others {degrees : Nat} (hd : degrees ≠ 0) {trouble : Nat → (Nat → V) → Bool}
    {lim : Nat → (Nat → V) → V} {inner inter ghosts : List Nat} (recv s : Nat → V)
    (c : Nat) (h1 : c ∉ inner) (h2 : c ∉ inter) :
    reconstruct degrees trouble lim inner inter ghosts recv s c =
      if c ∈ ghosts then recv c else s c := by
  simp only [reconstruct, if_neg hd]
  rw [limitGroup_spec, if_neg h2]
  unfold setGhosts
  rw [limitGroup_spec, if_neg h1]

/-- Three cells in a row. -/
def row : Nat → List Nat
  | 0 => [1]
  | 1 => [0, 2]
  | 2 => [1]
  | _ => []

/-- A limiter on `(average, slope)` that keeps the average and adds up the slopes around. -/
def demoLim (c : Nat) (s : Nat → Int × Int) : Int × Int :=
  ((s c).1, (s c).2 + ((row c).map (fun j => (s j).2)).sum)

theorem demo_local : Local row (fun _ _ => true) demoLim := by
  intro c s s' h1 h2
  refine ⟨rfl, ?_⟩
  unfold demoLim
  rw [h1, List.map_congr_left (fun j hj => by rw [h2 j hj])]

theorem demo_groups : Groups row [0] [1] [2] :=
  ⟨by decide, by decide, by decide, by intro c; rintro (h | h) <;> simp_all, by decide, by decide⟩

/-- The pass is not independent of the partition: cells 0 and 1 on one rank, cell 2 on another.
Cell 1 sees the already limited slope of its inner neighbour 0, but the old slope of the ghost
cell 2; its own slope comes out as 2, in a serial run as 1. -/
theorem reconstruct_depends_on_partition :
    ∃ (trouble : Nat → (Nat → Int × Int) → Bool) (lim : Nat → (Nat → Int × Int) → Int × Int)
      (nbr : Nat → List Nat) (inner inter ghosts : List Nat) (s : Nat → Int × Int),
      Local nbr trouble lim ∧ Groups nbr inner inter ghosts ∧
      (∀ c s, (lim c s).1 = (s c).1) ∧
      ∃ c ∈ inter, reconstruct 1 trouble lim inner inter ghosts s s c ≠ whole trouble lim s c := by
  refine ⟨fun _ _ => true, demoLim, row, [0], [1], [2], fun c => (0, if c = 1 then 1 else 0),
    demo_local, demo_groups, fun _ _ => rfl, 1, by simp, by decide⟩

/-- `reconstruct_parallel_partial` applies to the same three cells when only cell 1 is troubled. -/
example : reconstruct 1 (fun c _ => c == 1) demoLim [0] [1] [2]
    (fun c => (0, if c = 1 then 1 else 0)) (fun c => (0, if c = 1 then 1 else 0)) 1 = (0, 1) := by
  decide

end MiniCFD.Reconstruct
