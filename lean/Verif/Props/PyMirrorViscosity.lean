import Verif.Props.PyViscosityLinear
import Mathlib.Tactic.IntervalCases

/-! # C152: the profiles of the artificial viscosity in a mirror -/

namespace MiniCFD.PyMirrorViscosity
open MiniCFD.PyViscosity

/-- Element `count - 1 - i` of the second grid is the image of element `i` of the first one. -/
structure Mirrored (w : ℝ) (count : ℕ) (sites sites' : ℕ → Site) : Prop where
  xLeft : ∀ i < count, (sites' (count - 1 - i)).xLeft = w - ((sites i).xLeft + (sites i).length)
  length : ∀ i < count, (sites' (count - 1 - i)).length = (sites i).length

/-- The troubled elements are images of each other, and have the same constants. -/
structure SameLevels (count : ℕ) (nu nu' : ℕ → Option ℝ) (indices indices' : List ℕ) : Prop where
  mem : ∀ i < count, count - 1 - i ∈ indices' ↔ i ∈ indices
  same : ∀ i < count, nu' (count - 1 - i) = nu i
  inside : ∀ i ∈ indices, i < count ∧ (nu i).isSome
  inside' : ∀ i ∈ indices', i < count

section Grid
variable {w : ℝ} {count : ℕ} {periodic : Bool} {sites sites' : ℕ → Site} {nu nu' : ℕ → Option ℝ} {indices indices' : List ℕ}

theorem SameLevels.defined (h : SameLevels count nu nu' indices indices') : ∀ i ∈ indices', i < count ∧ (nu' i).isSome := by
  intro i hi
  have hc := h.inside' i hi
  have e : count - 1 - (count - 1 - i) = i := by omega
  have h1 := h.mem (count - 1 - i) (by omega)
  have h2 := h.same (count - 1 - i) (by omega)
  rw [e] at h1 h2
  exact ⟨hc, by rw [h2]; exact (h.inside _ (h1.1 hi)).2⟩

theorem level_mirror (h : SameLevels count nu nu' indices indices') {i : ℕ} (hi : i < count) :
    level nu' indices' (count - 1 - i) = level nu indices i := by
  unfold level
  simp only [h.mem i hi, h.same i hi]

theorem before_mirror {i : ℕ} (hi : i < count) : before count (count - 1 - i) = count - 1 - after count i := by
  unfold before after
  split_ifs <;> omega

theorem after_mirror {i : ℕ} (hi : i < count) : after count (count - 1 - i) = count - 1 - before count i := by
  unfold before after
  split_ifs <;> omega

theorem before_lt {i : ℕ} (hi : i < count) : before count i < count := by
  unfold before
  split_ifs <;> omega

theorem after_lt {i : ℕ} (hi : i < count) : after count i < count := by
  unfold after
  split_ifs <;> omega

theorem sides_mirror (hs : Chain periodic count sites) (hs' : Chain periodic count sites') {i : ℕ} (hi : i < count) :
    (sites' (count - 1 - i)).hasLeft = (sites i).hasRight ∧ (sites' (count - 1 - i)).hasRight = (sites i).hasLeft := by
  have h1 := hs'.left (count - 1 - i) (by omega)
  have h2 := hs'.right (count - 1 - i) (by omega)
  have e1 : count - 1 - i ≠ 0 ↔ i + 1 ≠ count := by omega
  have e2 : count - 1 - i + 1 ≠ count ↔ i ≠ 0 := by omega
  rw [e1, ← hs.right i hi] at h1
  rw [e2, ← hs.left i hi] at h2
  exact ⟨Bool.eq_iff_iff.2 h1, Bool.eq_iff_iff.2 h2⟩

/-- C152: The quadratic profiles are images of each other. -/
theorem quadratic_mirror (hs : Chain periodic count sites) (hs' : Chain periodic count sites')
    (hm : Mirrored w count sites sites') (h : SameLevels count nu nu' indices indices') {cache cache' : Quadratic.Cache}
    (hv : Quadratic.Valid count sites cache) (hv' : Quadratic.Valid count sites' cache') :
    ∃ d d' new new', Quadratic.generate nu count sites indices cache = some (d, new) ∧
      Quadratic.generate nu' count sites' indices' cache' = some (d', new') ∧
      ∀ i < count, d' (count - 1 - i) = (d i).map fun f x => f (w - x) := by
  obtain ⟨d, new, e, _, hd⟩ := Quadratic.generate_profiles hs h.inside hv
  obtain ⟨d', new', e', _, hd'⟩ := Quadratic.generate_profiles hs' h.defined hv'
  refine ⟨d, d', new, new', e, e', fun i hi => ?_⟩
  by_cases him : i ∈ indices
  · obtain ⟨f, hf⟩ := Option.isSome_iff_exists.1 ((hd i).2 him)
    obtain ⟨f', hf'⟩ := Option.isSome_iff_exists.1 ((hd' _).2 ((h.mem i hi).2 him))
    obtain ⟨_, _, _, rfl⟩ := Quadratic.generated hs (fun i hi => (h.inside i hi).1) hv e hf
    obtain ⟨_, _, _, rfl⟩ := Quadratic.generated hs' h.inside' hv' e' hf'
    rw [hf, hf', Option.map_some]
    congr 1
    funext x
    obtain ⟨s1, s2⟩ := sides_mirror hs hs' hi
    have hl := (hs.pos i hi).ne'
    have hb : Quadratic.ends nu' indices' count (count - 1 - i) (sites' (count - 1 - i)) =
        ![Quadratic.ends nu indices count i (sites i) 0, Quadratic.ends nu indices count i (sites i) 2,
          Quadratic.ends nu indices count i (sites i) 1] := by
      unfold Quadratic.ends
      rw [s1, s2, before_mirror hi, after_mirror hi, level_mirror h hi, level_mirror h (before_lt hi), level_mirror h (after_lt hi)]
      rfl
    rw [hb]
    generalize Quadratic.ends nu indices count i (sites i) = b
    have hc := hs'.center (count - 1 - i) (by omega)
    unfold Quadratic.shape Quadratic.parabola
    rw [hc, hm.xLeft i hi, hm.length i hi, hs.center i hi]
    show (if b 2 ≤ b 0 ∧ b 1 ≤ b 0 then
        max 0 (b 0 + (b 1 - b 2) / (sites i).length * (x - (w - ((sites i).xLeft + (sites i).length) + (sites i).length / 2)) +
          2 * (b 2 + b 1 - 2 * b 0) / (sites i).length ^ 2 *
            (x - (w - ((sites i).xLeft + (sites i).length) + (sites i).length / 2)) *
            (x - (w - ((sites i).xLeft + (sites i).length) + (sites i).length / 2)))
      else b 2 + (b 1 - b 2) * (x - (w - ((sites i).xLeft + (sites i).length))) / (sites i).length) = _
    simp only [and_comm (a := b 2 ≤ b 0)]
    split_ifs
    · congr 1
      ring
    · field_simp
      ring
  · have n1 : d i = none := Option.not_isSome_iff_eq_none.1 fun h0 => him ((hd i).1 h0)
    have n2 : d' (count - 1 - i) = none :=
      Option.not_isSome_iff_eq_none.1 fun h0 => him ((h.mem i hi).1 ((hd' _).1 h0))
    rw [n1, n2]
    rfl

theorem upwind_mirror (speed l r : ℝ) : Linear.upwind (-speed) r l = Linear.upwind speed l r := by
  unfold Linear.upwind
  rcases lt_trichotomy speed 0 with h | h | h
  · rw [if_pos (by linarith), if_neg (by linarith), if_pos h]
  · subst h; simp [add_comm]
  · rw [if_neg (by linarith), if_pos (by linarith), if_pos h]

/-- C152: The linear profiles are images of each other, if the waves run the other way. -/
theorem linear_mirror {speeds speeds' : ℕ → ℝ} (hs : Chain periodic count sites) (hs' : Chain periodic count sites')
    (hm : Mirrored w count sites sites') (h : SameLevels count nu nu' indices indices')
    (hleft : ∀ i < count, speeds' (Linear.faceAfter periodic count (count - 1 - i)) = -speeds i)
    (hright : ∀ i < count, speeds' (count - 1 - i) = -speeds (Linear.faceAfter periodic count i)) :
    ∃ d d', Linear.generate nu speeds periodic count sites indices = some d ∧
      Linear.generate nu' speeds' periodic count sites' indices' = some d' ∧
      ∀ i < count, d' (count - 1 - i) = (d i).map fun f x => f (w - x) := by
  obtain ⟨d, e, hd⟩ := Linear.generate_profiles (speeds := speeds) (periodic := periodic) (sites := sites) h.inside
  obtain ⟨d', e', hd'⟩ := Linear.generate_profiles (speeds := speeds') (periodic := periodic) (sites := sites') h.defined
  refine ⟨d, d', e, e', fun i hi => ?_⟩
  by_cases him : i ∈ indices
  · obtain ⟨f, hf⟩ := Option.isSome_iff_exists.1 ((hd i).2 him)
    obtain ⟨f', hf'⟩ := Option.isSome_iff_exists.1 ((hd' _).2 ((h.mem i hi).2 him))
    obtain ⟨_, _, rfl⟩ := Linear.generated (fun i hi => (h.inside i hi).1) e hf
    obtain ⟨_, _, rfl⟩ := Linear.generated h.inside' e' hf'
    rw [hf, hf', Option.map_some]
    congr 1
    funext x
    obtain ⟨s1, s2⟩ := sides_mirror hs hs' hi
    have hl := (hs.pos i hi).ne'
    have hb : Linear.sides nu' speeds' indices' count periodic (sites' (count - 1 - i)) (count - 1 - i) =
        ((Linear.sides nu speeds indices count periodic (sites i) i).2,
          (Linear.sides nu speeds indices count periodic (sites i) i).1) := by
      unfold Linear.sides
      rw [s1, s2, before_mirror hi, after_mirror hi, level_mirror h hi, level_mirror h (before_lt hi), level_mirror h (after_lt hi),
        Linear.rightFace_eq, Linear.rightFace_eq, hleft i hi, hright i hi, upwind_mirror, upwind_mirror]
    rw [hb]
    generalize Linear.sides nu speeds indices count periodic (sites i) i = b
    unfold Linear.line
    rw [hm.xLeft i hi, hm.length i hi]
    field_simp
    ring
  · have n1 : d i = none := Option.not_isSome_iff_eq_none.1 fun h0 => him ((hd i).1 h0)
    have n2 : d' (count - 1 - i) = none :=
      Option.not_isSome_iff_eq_none.1 fun h0 => him ((h.mem i hi).1 ((hd' _).1 h0))
    rw [n1, n2]
    rfl

end Grid

/-- Three elements of length 1 on `[0, 3]`, mirrored at the middle: the outer left one is troubled on one side, the outer
right one on the other. -/
example : ∃ d d' new new', Quadratic.generate (fun i => some (i + 1)) 3 Quadratic.units [0] (fun _ => none) = some (d, new) ∧
    Quadratic.generate (fun i => some (3 - i)) 3 Quadratic.units [2] (fun _ => none) = some (d', new') ∧
    ∀ i < 3, d' (3 - 1 - i) = (d i).map fun f x => f (3 - x) := by
  refine quadratic_mirror (periodic := true) (Quadratic.units_chain 3) (Quadratic.units_chain 3) ⟨fun i hi => ?_, fun i hi => rfl⟩
    ⟨fun i hi => ?_, fun i hi => ?_, ?_, ?_⟩ (Quadratic.valid_empty _ _) (Quadratic.valid_empty _ _)
  · interval_cases i <;> norm_num [Quadratic.units]
  · interval_cases i <;> simp
  · interval_cases i <;> norm_num
  · simp
  · simp

/-- Waves to the right on one side, to the left on the other. -/
example : ∃ d d', Linear.generate (fun i => some (i + 1)) (fun _ => 1) true 3 Quadratic.units [0, 1] = some d ∧
    Linear.generate (fun i => some (3 - i)) (fun _ => -1) true 3 Quadratic.units [1, 2] = some d' ∧
    ∀ i < 3, d' (3 - 1 - i) = (d i).map fun f x => f (3 - x) := by
  refine linear_mirror (Quadratic.units_chain 3) (Quadratic.units_chain 3) ⟨fun i hi => ?_, fun i hi => rfl⟩
    ⟨fun i hi => ?_, fun i hi => ?_, ?_, ?_⟩ (fun _ _ => rfl) fun _ _ => rfl
  · interval_cases i <;> norm_num [Quadratic.units]
  · interval_cases i <;> simp
  · interval_cases i <;> norm_num
  · simp
  · simp

end MiniCFD.PyMirrorViscosity
