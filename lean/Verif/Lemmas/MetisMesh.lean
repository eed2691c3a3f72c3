import Verif.Model.MetisMesh
import Verif.Spec.MetisMesh

/-! Helper lemmas for C147: what an object owns, and steps that concern one object only. -/

namespace MiniCFD.MetisMesh
open MiniCFD.Spec.MetisMesh (Value World set fit)

theorem put_eq_set {α : Type} (f : Nat → Option α) (a : Nat) (o : Option α) : put f a o = set f a o := rfl

@[simp] theorem put_same {α : Type} (f : Nat → Option α) (a : Nat) (o : Option α) : put f a o a = o := by simp [put]

theorem put_ne {α : Type} (f : Nat → Option α) {a b : Nat} (o : Option α) (h : b ≠ a) : put f a o b = f b := by simp [put, h]

theorem resized_eq_fit (xs : List Int) (n : Nat) : resized xs n = fit xs n := by
  apply List.ext_getElem?
  intro i
  unfold resized fit
  rw [List.getElem?_append, List.getElem?_take, List.getElem?_replicate, List.getElem?_map, List.length_take]
  by_cases hi : i < n
  · rw [List.getElem?_range hi]
    by_cases hx : i < xs.length
    · have : i < min n xs.length := by omega
      simp [hi, hx, this]
    · have : ¬ i < min n xs.length := by omega
      have h2 : i - min n xs.length < n - xs.length := by omega
      simp only [this, if_false, h2, if_true, Option.map_some]
      rw [List.getElem?_eq_none (by omega)]; rfl
  · have : ¬ i < min n xs.length := by omega
    have h2 : ¬ i - min n xs.length < n - xs.length := by omega
    have h3 : (List.range n)[i]? = none := List.getElem?_eq_none (by rw [List.length_range]; omega)
    simp [this, h2, h3]

@[simp] theorem fit_length (xs : List Int) (n : Nat) : (fit xs n).length = n := by simp [fit]

/-- The arrays that the vectors of an object hold. -/
def Has (m : Option Mesh) (b : Nat) : Prop := ∃ o, m = some o ∧ (o.ownRange = some b ∨ o.ownIndex = some b)

/-- An object that represents a value, or none. -/
def Good (h : Heap) (m : Option Mesh) : Option (Option Value) → Prop
  | none => m = none
  | some none => ∃ o, m = some o ∧ o.ownRange = none ∧ o.ownIndex = none
  | some (some v) => ∃ r x, r ≠ x ∧ m = some ⟨some r, some x, some (⟨v.range.length - 1, r, x⟩, v.count)⟩ ∧
      h.arrays r = some ⟨false, v.range⟩ ∧ h.arrays x = some ⟨false, v.nodes⟩

/-- A heap that represents a world. -/
structure Rel (h : Heap) (w : World) : Prop where
  vec : ∀ b xs, h.arrays b = some ⟨true, xs⟩ ↔ w.vectors b = some xs
  good : ∀ a, Good h (h.meshes a) (w.meshes a)
  sep : ∀ a a' b, Has (h.meshes a) b → Has (h.meshes a') b → a = a'

variable {h h' : Heap} {w w' : World}

theorem Good.inside {m : Option Mesh} {o : Option (Option Value)} (g : Good h m o) {b : Nat} (hb : Has m b) :
    ∃ xs, h.arrays b = some ⟨false, xs⟩ := by
  obtain ⟨k, rfl, hk⟩ := hb
  match o, g with
  | some none, g =>
    obtain ⟨_, e, h1, h2⟩ := g
    cases e
    rcases hk with hk | hk
    · rw [h1] at hk; cases hk
    · rw [h2] at hk; cases hk
  | some (some v), g =>
    obtain ⟨r, x, _, e, h1, h2⟩ := g
    cases e
    rcases hk with hk | hk
    · cases hk; exact ⟨_, h1⟩
    · cases hk; exact ⟨_, h2⟩

theorem Good.mono {m : Option Mesh} {o : Option (Option Value)} (g : Good h m o)
    (e : ∀ b, Has m b → h'.arrays b = h.arrays b) : Good h' m o := by
  match o, g with
  | none, g => exact g
  | some none, g => exact g
  | some (some v), g =>
    obtain ⟨r, x, hne, rfl, h1, h2⟩ := g
    exact ⟨r, x, hne, rfl, (e r ⟨_, rfl, .inl rfl⟩).trans h1, (e x ⟨_, rfl, .inr rfl⟩).trans h2⟩

/-- A step that concerns the object `a` only. -/
theorem Rel.frame (R : Rel h w) {a : Nat} {m' : Option Mesh} {o' : Option (Option Value)}
    (hv : ∀ b xs, h'.arrays b = some ⟨true, xs⟩ ↔ w'.vectors b = some xs)
    (hm : h'.meshes = put h.meshes a m') (hw : w'.meshes = set w.meshes a o')
    (keep : ∀ a' b, a' ≠ a → Has (h.meshes a') b → h'.arrays b = h.arrays b)
    (fresh : ∀ b, Has m' b → ∀ a', a' ≠ a → ¬ Has (h.meshes a') b)
    (good : Good h' m' o') : Rel h' w' where
  vec := hv
  good a' := by
    rw [hm, hw, ← put_eq_set]
    by_cases e : a' = a
    · subst e; simpa using good
    · rw [put_ne _ _ e, put_ne _ _ e]
      exact (R.good a').mono fun b hb => keep a' b e hb
  sep a1 a2 b h1 h2 := by
    rw [hm] at h1 h2
    by_cases e1 : a1 = a
    · by_cases e2 : a2 = a
      · rw [e1, e2]
      · subst e1
        rw [put_same] at h1; rw [put_ne _ _ e2] at h2
        exact (fresh b h1 a2 e2 h2).elim
    · by_cases e2 : a2 = a
      · subst e2
        rw [put_same] at h2; rw [put_ne _ _ e1] at h1
        exact (fresh b h2 a1 e1 h1).elim
      · rw [put_ne _ _ e1] at h1; rw [put_ne _ _ e2] at h2
        exact R.sep _ _ _ h1 h2

theorem release_meshes (h : Heap) (o : Option Nat) : (release h o).meshes = h.meshes := by
  cases o <;> rfl

theorem release_ne (h : Heap) {o : Option Nat} {b : Nat} (hb : o ≠ some b) : (release h o).arrays b = h.arrays b := by
  cases o with
  | none => rfl
  | some c => exact put_ne _ _ fun e => hb (e ▸ rfl)

theorem release_self (h : Heap) (b : Nat) : (release h (some b)).arrays b = none := put_same _ _ _

/-- The heap after the vectors of an object gave their arrays back. -/
theorem release_two (h : Heap) (m : Mesh) (b : Nat) :
    (release (release h m.ownRange) m.ownIndex).arrays b =
      if m.ownRange = some b ∨ m.ownIndex = some b then none else h.arrays b := by
  by_cases h2 : m.ownIndex = some b
  · rw [h2, release_self]; simp
  · rw [release_ne _ h2]
    by_cases h1 : m.ownRange = some b
    · rw [h1, release_self]; simp
    · rw [release_ne _ h1]; simp [h1, h2]

theorem Rel.released (R : Rel h w) {a : Nat} {m : Mesh} (hm : h.meshes a = some m) (b : Nat) (xs : List Int) :
    (release (release h m.ownRange) m.ownIndex).arrays b = some ⟨true, xs⟩ ↔ h.arrays b = some ⟨true, xs⟩ := by
  rw [release_two]
  split_ifs with hb
  · obtain ⟨ys, hy⟩ := (R.good a).inside (hm ▸ ⟨m, rfl, hb⟩ : Has (h.meshes a) b)
    rw [hy]; simp
  · rfl

theorem alloc_some {h : Heap} {b : Nat} {x : Array'} (hb : h.arrays b = none) :
    alloc h b x = some { h with arrays := put h.arrays b (some x) } := by simp [alloc, hb]

end MiniCFD.MetisMesh
