import Verif.Model.RotorHeap

/-! C57: the back pointers of blades. -/

namespace MiniCFD.RotorHeap

/-- Whatever sequence of constructions, copies, moves, destructions and installations a program
performs, every blade of every live rotor points to the rotor that owns it. -/
theorem blades_point_home (os : List Op) (h : Heap) (hr : run (fun _ => none) os = some h) (a : Nat)
    (bs : List Nat) (ha : h a = some bs) : ∀ p ∈ bs, p = a := by
  have step : ∀ (os : List Op) (h0 h : Heap), (∀ a bs, h0 a = some bs → ∀ p ∈ bs, p = a) →
      run h0 os = some h → ∀ a bs, h a = some bs → ∀ p ∈ bs, p = a := by
    have hset : ∀ (h : Heap) (a : Nat) (o : Option (List Nat)),
        (∀ a bs, h a = some bs → ∀ p ∈ bs, p = a) → (∀ bs, o = some bs → ∀ p ∈ bs, p = a) →
        ∀ b bs, h.set a o b = some bs → ∀ p ∈ bs, p = b := by
      intro h a o h1 h2 b bs h3
      unfold Heap.set at h3
      split at h3
      · next e => subst e; exact h2 bs h3
      · exact h1 b bs h3
    have hreb : ∀ (a : Nat) (xs bs : List Nat), some (rebind a xs) = some bs → ∀ p ∈ bs, p = a := by
      intro a xs bs h1 p hp
      cases h1
      obtain ⟨_, _, e⟩ := List.mem_map.1 hp
      exact e.symm
    have hnil : ∀ (a : Nat) (bs : List Nat), some [] = some bs → ∀ p ∈ bs, p = a := by
      intro a bs h1 p hp
      cases h1
      simp at hp
    have hassign : ∀ (m : Bool) (h h' : Heap) (d s : Nat),
        (∀ a bs, h a = some bs → ∀ p ∈ bs, p = a) → assign m h d s = some h' →
        ∀ a bs, h' a = some bs → ∀ p ∈ bs, p = a := by
      intro m h h' d s h1 h2
      unfold assign at h2
      split at h2
      · cases h2; exact h1
      · split at h2
        · next bs _ _ =>
          simp only [Option.some.injEq] at h2
          subst h2
          have h3 := hset h d (some (rebind d bs)) h1 (hreb d bs)
          cases m
          · exact h3
          · exact hset _ s (some []) h3 (hnil s)
        · cases h2
    intro os
    induction os with
    | nil => intro h0 h h1 h2; cases h2; exact h1
    | cons o os ih =>
      intro h0 h h1 h2
      rw [run, Option.bind_eq_some_iff] at h2
      obtain ⟨h', h3, h4⟩ := h2
      refine ih h' h ?_ h4
      cases o with
      | construct a =>
        simp only [apply] at h3
        split at h3
        · cases h3; exact hset _ _ _ h1 (hnil a)
        · cases h3
      | destroy a =>
        simp only [apply] at h3
        split at h3
        · cases h3
        · cases h3; exact hset _ _ _ h1 (fun bs e => by cases e)
      | copyAssign d s => exact hassign _ _ _ _ _ h1 h3
      | moveAssign d s => exact hassign _ _ _ _ _ h1 h3
      | copyConstruct d s =>
        simp only [apply] at h3
        split at h3
        · exact hassign _ _ _ _ _ (hset _ _ _ h1 (hnil d)) h3
        · cases h3
      | moveConstruct d s =>
        simp only [apply] at h3
        split at h3
        · exact hassign _ _ _ _ _ (hset _ _ _ h1 (hnil d)) h3
        · cases h3
      | install a p =>
        simp only [apply] at h3
        split at h3
        · cases h3
        · next bs hb =>
          simp only [List.dropLast_concat, Option.some.injEq] at h3
          subst h3
          refine hset _ _ _ h1 ?_
          intro cs e q hq
          cases e
          rcases List.mem_append.1 hq with hq | hq
          · exact h1 a bs hb q hq
          · simpa using hq
  exact step os _ h (fun _ _ e => by cases e) hr a bs ha

/-- Copying keeps the number of blades of the source, in both objects. -/
theorem copy_keeps_blades (h h' : Heap) (d s : Nat) (hd : h d = none) (bs : List Nat)
    (hs : h s = some bs) (hr : apply h (.copyConstruct d s) = some h') :
    h' s = some bs ∧ ∃ cs, h' d = some cs ∧ cs.length = bs.length := by
  have hne : d ≠ s := by rintro rfl; rw [hd] at hs; cases hs
  have hne' : ¬ s = d := fun e => hne e.symm
  simp only [apply, hd, if_true, assign, hne, if_false, Heap.set, hs, hne', Option.some.injEq,
    Bool.false_eq_true] at hr
  subst hr
  simp [Heap.set, hne', hs, rebind]

/-- A vector of rotors that grows: the first rotor is installed, copied to address 10, moved to
address 20 when the vector reallocates, and a second one is appended at 21. -/
example : ∃ h, run (fun _ => none) [.construct 0, .install 0 99, .install 0 7, .copyConstruct 10 0,
    .moveConstruct 20 10, .destroy 10, .copyConstruct 21 0] = some h ∧
    h 20 = some [20, 20] ∧ h 21 = some [21, 21] ∧ h 0 = some [0, 0] := by
  refine ⟨_, rfl, ?_, ?_, ?_⟩ <;> rfl

end MiniCFD.RotorHeap
