import Verif.Lemmas.PyViscosity
import Mathlib.Tactic.Linarith
import Mathlib.Tactic.LinearCombination
import Mathlib.Tactic.FieldSimp
import Mathlib.Tactic.Positivity
import Mathlib.Tactic.FinCases
import Mathlib.Topology.Order.Lattice

/-! # C116, C117: the profiles of the energy-based viscosity -/

namespace MiniCFD.PyViscosity

/-- The elements of a grid from left to right: each begins where the one before it ends, and all but the outer ones of a
grid that is not periodic have both neighbours. -/
structure Chain (periodic : Bool) (count : ℕ) (sites : ℕ → Site) : Prop where
  pos : ∀ i < count, 0 < (sites i).length
  center : ∀ i < count, (sites i).xCenter = (sites i).xLeft + (sites i).length / 2
  left : ∀ i < count, ((sites i).hasLeft = true ↔ periodic = true ∨ i ≠ 0)
  right : ∀ i < count, ((sites i).hasRight = true ↔ periodic = true ∨ i + 1 ≠ count)
  touch : ∀ i, i + 1 < count → (sites (i + 1)).xLeft = (sites i).xLeft + (sites i).length

/-- The element at the left, the last one for the first. -/
def before (count i : ℕ) : ℕ := if i = 0 then count - 1 else i - 1

/-- The element at the right, the first one for the last. -/
def after (count i : ℕ) : ℕ := if i + 1 = count then 0 else i + 1

/-- The constant that belongs to an element: zero for the untroubled ones. -/
noncomputable def level (nu : ℕ → Option ℝ) (indices : List ℕ) (i : ℕ) : ℝ := if i ∈ indices then (nu i).getD 0 else 0

theorem getNu_before {nus : Dict ℝ} {count i : ℕ} (hi : i < count) :
    getNu nus (i - 1) count = some ((nus (before count i)).getD 0) := by
  unfold getNu lookup before
  rw [if_pos (by omega)]
  dsimp only
  by_cases h : i = 0
  · subst h
    have e : (if (((0 : ℕ) : ℤ) - 1) < 0 then ((0 : ℕ) : ℤ) - 1 + (count : ℤ) else ((0 : ℕ) : ℤ) - 1) = (count : ℤ) - 1 := by
      rw [if_pos (by simp)]; push_cast; ring
    rw [e, if_neg (by omega)]
    simp only [if_true, Option.map_some]
    congr 3
    omega
  · rw [if_neg (by omega : ¬((i : ℤ) - 1 < 0)), if_neg (by omega : ¬((i : ℤ) - 1 = count)), if_neg h]
    simp only [Option.map_some]
    congr 3
    omega

theorem getNu_after {nus : Dict ℝ} {count i : ℕ} (hi : i < count) :
    getNu nus (i + 1) count = some ((nus (after count i)).getD 0) := by
  unfold getNu lookup after
  rw [if_pos (by omega)]
  dsimp only
  rw [if_neg (by omega : ¬((i : ℤ) + 1 < 0))]
  by_cases h : i + 1 = count
  · rw [if_pos (by omega : ((i : ℤ) + 1 = count)), if_pos h]; simp
  · rw [if_neg (by omega : ¬((i : ℤ) + 1 = count)), if_neg h]
    simp only [Option.map_some]
    congr 3

namespace Quadratic

private theorem det_interfaces {length : ℝ} (hl : 0 < length) : (onInterfaces length).det ≠ 0 := by
  have : (onInterfaces length).det = -(length ^ 3 / 4) := by
    unfold onInterfaces
    rw [Matrix.det_fin_three]
    simp
    ring
  rw [this]
  have : 0 < length ^ 3 / 4 := by positivity
  linarith

private theorem solve {length : ℝ} (hl : 0 < length) (b : Fin 3 → ℝ) :
    (onInterfaces length)⁻¹.mulVec b =
      ![b 0, (b 2 - b 1) / length, 2 * (b 1 + b 2 - 2 * b 0) / length ^ 2] := by
  have h : (onInterfaces length).mulVec ![b 0, (b 2 - b 1) / length, 2 * (b 1 + b 2 - 2 * b 0) / length ^ 2] = b := by
    funext i
    fin_cases i
    · simp [onInterfaces, Matrix.mulVec, dotProduct, Fin.sum_univ_three]
    · simp [onInterfaces, Matrix.mulVec, dotProduct, Fin.sum_univ_three]
      field_simp
      ring
    · simp [onInterfaces, Matrix.mulVec, dotProduct, Fin.sum_univ_three]
      field_simp
      ring
  conv_lhs => rw [← h]
  rw [Matrix.mulVec_mulVec, Matrix.nonsing_inv_mul _ (isUnit_iff_ne_zero.2 (det_interfaces hl)), Matrix.one_mulVec]

/-- The entries of the cache belong to the elements of the grid at hand. -/
def Valid (count : ℕ) (sites : ℕ → Site) (cache : Cache) : Prop :=
  ∀ i < count, ∀ inv, cache i = some inv → inv = (onInterfaces (sites i).length)⁻¹

/-- The parabola through the center and the ends. -/
noncomputable def parabola (b : Fin 3 → ℝ) (length t : ℝ) : ℝ :=
  b 0 + (b 2 - b 1) / length * t + 2 * (b 1 + b 2 - 2 * b 0) / length ^ 2 * t * t

open scoped Classical in
noncomputable def shape (b : Fin 3 → ℝ) (c : Site) (x : ℝ) : ℝ :=
  if b 1 ≤ b 0 ∧ b 2 ≤ b 0 then max 0 (parabola b c.length (x - c.xCenter))
  else b 1 + (b 2 - b 1) * (x - c.xLeft) / c.length

private theorem callable_shape {count i : ℕ} {sites : ℕ → Site} {cache : Cache} (hv : Valid count sites cache) (hi : i < count)
    (hl : 0 < (sites i).length) (b : Fin 3 → ℝ) :
    ∃ cache', callableScalar cache b i (sites i) = some (shape b (sites i), cache') ∧ Valid count sites cache' := by
  have hmax : b 0 = max (max (b 0) (b 1)) (b 2) ↔ b 1 ≤ b 0 ∧ b 2 ≤ b 0 := by
    constructor
    · intro h
      constructor
      · rw [h]; exact (le_max_right _ _).trans (le_max_left _ _)
      · rw [h]; exact le_max_right _ _
    · rintro ⟨h1, h2⟩
      rw [max_eq_left h1, max_eq_left h2]
  unfold callableScalar
  by_cases hb : b 1 ≤ b 0 ∧ b 2 ≤ b 0
  · have e : shape b (sites i) = fun x => max 0 (parabola b (sites i).length (x - (sites i).xCenter)) := by
      funext x; rw [shape, if_pos hb]
    rw [if_neg (by rw [not_not]; exact hmax.2 hb), e]
    dsimp only
    cases hc : cache i with
    | some inv =>
      refine ⟨cache, ?_, hv⟩
      simp only [Option.map_some, hv i hi inv hc, solve hl]
      rfl
    | none =>
      rw [if_neg (det_interfaces hl)]
      refine ⟨_, by simp only [Option.map_some, solve hl]; rfl, ?_⟩
      intro j hj inv h
      by_cases hij : j = i
      · subst hij
        rw [Function.update_self] at h
        exact (Option.some.inj h).symm
      · rw [Function.update_of_ne hij] at h
        exact hv j hj inv h
  · rw [if_pos (by intro h; exact hb (hmax.1 h))]
    refine ⟨cache, ?_, hv⟩
    congr 2
    funext x
    rw [shape, if_neg hb]

private theorem shape_left {b : Fin 3 → ℝ} {c : Site} (hl : 0 < c.length) (hc : c.xCenter = c.xLeft + c.length / 2)
    (h1 : 0 ≤ b 1) : shape b c c.xLeft = b 1 := by
  unfold shape parabola
  split_ifs
  · rw [hc]
    have : b 0 + (b 2 - b 1) / c.length * (c.xLeft - (c.xLeft + c.length / 2)) + 2 * (b 1 + b 2 - 2 * b 0) / c.length ^ 2 *
        (c.xLeft - (c.xLeft + c.length / 2)) * (c.xLeft - (c.xLeft + c.length / 2)) = b 1 := by
      field_simp; ring
    rw [this, max_eq_right h1]
  · simp

private theorem shape_right {b : Fin 3 → ℝ} {c : Site} (hl : 0 < c.length) (hc : c.xCenter = c.xLeft + c.length / 2)
    (h2 : 0 ≤ b 2) : shape b c (c.xLeft + c.length) = b 2 := by
  unfold shape parabola
  split_ifs
  · rw [hc]
    have : b 0 + (b 2 - b 1) / c.length * (c.xLeft + c.length - (c.xLeft + c.length / 2)) +
        2 * (b 1 + b 2 - 2 * b 0) / c.length ^ 2 *
        (c.xLeft + c.length - (c.xLeft + c.length / 2)) * (c.xLeft + c.length - (c.xLeft + c.length / 2)) = b 2 := by
      field_simp; ring
    rw [this, max_eq_right h2]
  · field_simp; ring

private theorem shape_center {b : Fin 3 → ℝ} {c : Site} (h0 : 0 ≤ b 0) (h : b 1 ≤ b 0 ∧ b 2 ≤ b 0) :
    shape b c c.xCenter = b 0 := by
  unfold shape parabola
  rw [if_pos h]
  simp [h0]

private theorem shape_bounds {b : Fin 3 → ℝ} {c : Site} (hl : 0 < c.length) (hc : c.xCenter = c.xLeft + c.length / 2)
    (h0 : 0 ≤ b 0) (h1 : b 0 ≤ 2 * b 1) (h2 : b 0 ≤ 2 * b 2) {x : ℝ} (hx : c.xLeft ≤ x) (hx' : x ≤ c.xLeft + c.length) :
    min (b 1) (b 2) ≤ shape b c x ∧ shape b c x ≤ max (17 / 16 * b 0) (max (b 1) (b 2)) := by
  set y := (x - c.xLeft) / c.length with hy
  have hy0 : 0 ≤ y := div_nonneg (by linarith) hl.le
  have hy1 : y ≤ 1 := (div_le_one hl).2 (by linarith)
  have ex : x = c.xLeft + y * c.length := by rw [hy]; field_simp; ring
  unfold shape
  split_ifs with h
  · have e : parabola b c.length (x - c.xCenter) = (1 - y) * b 1 + y * b 2 + 2 * y * (1 - y) * ((b 0 - b 1) + (b 0 - b 2)) := by
      unfold parabola
      rw [ex, hc]
      field_simp
      ring
    have hlow : min (b 1) (b 2) ≤ (1 - y) * b 1 + y * b 2 := by
      nlinarith [min_le_left (b 1) (b 2), min_le_right (b 1) (b 2)]
    have hnn : 0 ≤ 2 * y * (1 - y) * ((b 0 - b 1) + (b 0 - b 2)) := by
      have : 0 ≤ 1 - y := by linarith
      have : 0 ≤ (b 0 - b 1) + (b 0 - b 2) := by linarith [h.1, h.2]
      positivity
    have hmin : 0 ≤ min (b 1) (b 2) := le_min (by linarith) (by linarith)
    rw [e, max_eq_right (by linarith)]
    refine ⟨by linarith, le_max_of_le_left ?_⟩
    have hs : 0 ≤ b 0 - b 1 := by linarith [h.1]
    have ht : 0 ≤ b 0 - b 2 := by linarith [h.2]
    have hs' : b 0 - b 1 ≤ b 0 / 2 := by linarith
    have ht' : b 0 - b 2 ≤ b 0 / 2 := by linarith
    set s := b 0 - b 1
    set t := b 0 - b 2
    have e1 : (1 - y) * b 1 + y * b 2 + 2 * y * (1 - y) * (s + t) =
        b 0 - s * (1 - y) * (1 - 2 * y) - t * y * (2 * y - 1) := by
      have h1 : b 1 = b 0 - s := by ring
      have h2 : b 2 = b 0 - t := by ring
      rw [h1, h2]; ring
    rw [e1]
    rcases le_total y (1 / 2) with hh | hh
    · have a1 : 0 ≤ s * ((1 - y) * (1 - 2 * y)) := mul_nonneg hs (mul_nonneg (by linarith) (by linarith))
      have a2 : t * (y * (1 - 2 * y)) ≤ b 0 / 2 * (1 / 8) := by
        refine mul_le_mul ht' ?_ (mul_nonneg hy0 (by linarith)) (by linarith)
        nlinarith [sq_nonneg (4 * y - 1)]
      nlinarith
    · have a1 : 0 ≤ t * (y * (2 * y - 1)) := mul_nonneg ht (mul_nonneg hy0 (by linarith))
      have a2 : s * ((1 - y) * (2 * y - 1)) ≤ b 0 / 2 * (1 / 8) := by
        refine mul_le_mul hs' ?_ (mul_nonneg (by linarith) (by linarith)) (by linarith)
        nlinarith [sq_nonneg (4 * y - 3)]
      nlinarith
  · have e : b 1 + (b 2 - b 1) * (x - c.xLeft) / c.length = (1 - y) * b 1 + y * b 2 := by
      rw [hy]; field_simp; ring
    rw [e]
    constructor
    · nlinarith [min_le_left (b 1) (b 2), min_le_right (b 1) (b 2)]
    · refine le_max_of_le_right ?_
      nlinarith [le_max_left (b 1) (b 2), le_max_right (b 1) (b 2)]

private theorem shape_continuous (b : Fin 3 → ℝ) (c : Site) : Continuous (shape b c) := by
  by_cases h : b 1 ≤ b 0 ∧ b 2 ≤ b 0
  · have e : shape b c = fun x => max 0 (parabola b c.length (x - c.xCenter)) := by funext x; rw [shape, if_pos h]
    rw [e]
    unfold parabola
    fun_prop
  · have e : shape b c = fun x => b 1 + (b 2 - b 1) * (x - c.xLeft) / c.length := by funext x; rw [shape, if_neg h]
    rw [e]
    fun_prop

noncomputable def ends (nu : ℕ → Option ℝ) (indices : List ℕ) (count i : ℕ) (c : Site) : Fin 3 → ℝ :=
  ![level nu indices i, if c.hasLeft then (level nu indices i + level nu indices (before count i)) / 2 else level nu indices i,
    if c.hasRight then (level nu indices i + level nu indices (after count i)) / 2 else level nu indices i]

private theorem faces_ends {nu : ℕ → Option ℝ} {indices : List ℕ} {count i : ℕ} (hi : i < count) (hm : i ∈ indices)
    (hn : (nu i).isSome) (c : Site) :
    faces (fun i => if i ∈ indices then nu i else none) count i c = some (ends nu indices count i c) := by
  obtain ⟨v, hv⟩ := Option.isSome_iff_exists.1 hn
  have hlev : ∀ j, ((if j ∈ indices then nu j else none : Option ℝ)).getD 0 = level nu indices j := by
    intro j
    unfold level
    split_ifs <;> rfl
  unfold faces
  simp only [if_pos hm, hv, Option.bind_some, getNu_before hi, getNu_after hi, hlev, Option.map_some]
  have hlv : level nu indices i = v := by rw [← hlev, if_pos hm, hv]; rfl
  unfold ends common
  rw [hlv]
  cases c.hasLeft <;> cases c.hasRight <;> rfl

private theorem profiles_shape {nu : ℕ → Option ℝ} {indices : List ℕ} {count : ℕ} {sites : ℕ → Site}
    (hp : ∀ i < count, 0 < (sites i).length) (hn : ∀ i ∈ indices, i < count ∧ (nu i).isSome) :
    ∀ (is : List ℕ) (cache : Cache) (d : Dict (ℝ → ℝ)), (∀ i ∈ is, i ∈ indices) → Valid count sites cache →
    ∃ cache', profiles (fun i => if i ∈ indices then nu i else none) count sites is cache d =
      some (fun i => if i ∈ is then some (shape (ends nu indices count i (sites i)) (sites i)) else d i, cache') ∧
      Valid count sites cache'
  | [], cache, d, _, hv => ⟨cache, by simp [profiles], hv⟩
  | i :: is, cache, d, hsub, hv => by
    have hi := hsub i List.mem_cons_self
    obtain ⟨cache1, e1, hv1⟩ := callable_shape hv (hn i hi).1 (hp i (hn i hi).1) (ends nu indices count i (sites i))
    obtain ⟨cache2, e2, hv2⟩ := profiles_shape hp hn is cache1
      (Function.update d i (some (shape (ends nu indices count i (sites i)) (sites i))))
      (fun j hj => hsub j (List.mem_cons_of_mem _ hj)) hv1
    refine ⟨cache2, ?_, hv2⟩
    unfold profiles callableCoeff
    rw [faces_ends (hn i hi).1 hi (hn i hi).2]
    simp only [Option.bind_some, e1, e2]
    congr 2
    funext j
    by_cases hj : j = i
    · subst hj; simp
    · simp [hj, Function.update_of_ne hj]

/-- C116: `generate` stores a profile for every troubled element and for no other.  It succeeds if every troubled element
has its constant, and the cache of inverse matrices, right for this grid before, is right for it afterwards. -/
theorem generate_profiles {nu : ℕ → Option ℝ} {indices : List ℕ} {count : ℕ} {sites : ℕ → Site} {periodic : Bool}
    (hs : Chain periodic count sites) (hn : ∀ i ∈ indices, i < count ∧ (nu i).isSome) {cache : Cache}
    (hv : Valid count sites cache) :
    ∃ d cache', generate nu count sites indices cache = some (d, cache') ∧ Valid count sites cache' ∧
      ∀ i, (d i).isSome ↔ i ∈ indices := by
  obtain ⟨cache', e, hv'⟩ := profiles_shape hs.pos hn indices cache (fun _ => none) (fun i hi => hi) hv
  refine ⟨fun i => if i ∈ indices then some (shape (ends nu indices count i (sites i)) (sites i)) else none, cache', ?_, hv', ?_⟩
  · unfold generate
    rw [(fill_eq nu indices _ _).2 ⟨fun i hi => (hn i hi).2, rfl⟩, Option.bind_some, e]
  · intro i
    by_cases hi : i ∈ indices <;> simp [hi]

/-- C116: The empty cache of a new object is right for every grid. -/
theorem valid_empty (count : ℕ) (sites : ℕ → Site) : Valid count sites fun _ => none := by
  intro i _ inv h
  cases h

theorem generated {nu : ℕ → Option ℝ} {indices : List ℕ} {count : ℕ} {sites : ℕ → Site} {periodic : Bool}
    (hs : Chain periodic count sites) (hn : ∀ i ∈ indices, i < count) {cache cache' : Cache} {d : Dict (ℝ → ℝ)}
    (hv : Valid count sites cache) (h : generate nu count sites indices cache = some (d, cache')) {i : ℕ} {f : ℝ → ℝ}
    (hf : d i = some f) : i ∈ indices ∧ i < count ∧ (nu i).isSome ∧ f = shape (ends nu indices count i (sites i)) (sites i) := by
  have h0 := h
  unfold generate at h
  rw [Option.bind_eq_some_iff] at h
  obtain ⟨nus, hfill, _⟩ := h
  obtain ⟨hsome, _⟩ := (fill_eq nu indices _ _).1 hfill
  obtain ⟨cache2, e, _⟩ := profiles_shape hs.pos (fun i hi => ⟨hn i hi, hsome i hi⟩) indices cache (fun _ => none)
    (fun i hi => hi) hv
  unfold generate at h0
  rw [(fill_eq nu indices _ _).2 ⟨hsome, rfl⟩, Option.bind_some, e] at h0
  obtain ⟨rfl, rfl⟩ := Prod.mk.inj (Option.some.inj h0)
  by_cases hi : i ∈ indices
  · simp only [hi, if_true, Option.some.injEq] at hf
    exact ⟨hi, hn i hi, hsome i hi, hf.symm⟩
  · simp [hi] at hf

variable {nu : ℕ → Option ℝ} {indices : List ℕ} {count : ℕ} {sites : ℕ → Site} {periodic : Bool} {cache cache' : Cache}
  {d : Dict (ℝ → ℝ)}

private theorem level_nonneg (h0 : ∀ i v, nu i = some v → 0 ≤ v) (i : ℕ) : 0 ≤ level nu indices i := by
  unfold level
  split_ifs
  · cases h : nu i with
    | none => exact le_refl _
    | some v => exact h0 i v h
  · exact le_refl _

private theorem ends_nonneg (h0 : ∀ i v, nu i = some v → 0 ≤ v) (i : ℕ) (c : Site) :
    0 ≤ ends nu indices count i c 0 ∧ ends nu indices count i c 0 ≤ 2 * ends nu indices count i c 1 ∧
    ends nu indices count i c 0 ≤ 2 * ends nu indices count i c 2 := by
  have h1 := level_nonneg (indices := indices) h0 i
  have h2 := level_nonneg (indices := indices) h0 (before count i)
  have h3 := level_nonneg (indices := indices) h0 (after count i)
  refine ⟨h1, ?_, ?_⟩
  · change level nu indices i ≤ 2 * (if c.hasLeft then _ else _)
    split_ifs <;> linarith
  · change level nu indices i ≤ 2 * (if c.hasRight then _ else _)
    split_ifs <;> linarith

/-- C116: At a face to a neighbour the profile is the mean of the two constants, zero counting for an untroubled
neighbour; at the end of a grid that is not periodic it is the constant of the element. -/
theorem face_values (hs : Chain periodic count sites) (hn : ∀ i ∈ indices, i < count) (hv : Valid count sites cache)
    (h0 : ∀ i v, nu i = some v → 0 ≤ v) (h : generate nu count sites indices cache = some (d, cache')) {i : ℕ} {f : ℝ → ℝ}
    (hf : d i = some f) :
    (f (sites i).xLeft = if periodic = true ∨ i ≠ 0 then (level nu indices i + level nu indices (before count i)) / 2
      else level nu indices i) ∧
    f ((sites i).xLeft + (sites i).length) =
      if periodic = true ∨ i + 1 ≠ count then (level nu indices i + level nu indices (after count i)) / 2
      else level nu indices i := by
  obtain ⟨_, hi, _, rfl⟩ := generated hs hn hv h hf
  obtain ⟨e0, e1, e2⟩ := ends_nonneg (indices := indices) (count := count) h0 i (sites i)
  rw [shape_left (hs.pos i hi) (hs.center i hi) (by linarith), shape_right (hs.pos i hi) (hs.center i hi) (by linarith)]
  simp only [← hs.left i hi, ← hs.right i hi]
  exact ⟨rfl, rfl⟩

/-- C116: Between two troubled elements the viscosity has no jump, also across the ends of a periodic grid. -/
theorem no_jump (hs : Chain periodic count sites) (hn : ∀ i ∈ indices, i < count) (hv : Valid count sites cache)
    (h0 : ∀ i v, nu i = some v → 0 ≤ v) (h : generate nu count sites indices cache = some (d, cache')) {i : ℕ}
    (hp : periodic = true ∨ i + 1 ≠ count) {f g : ℝ → ℝ} (hf : d i = some f) (hg : d (after count i) = some g) :
    f ((sites i).xLeft + (sites i).length) = g (sites (after count i)).xLeft := by
  obtain ⟨_, hi, _, _⟩ := generated hs hn hv h hf
  rw [(face_values hs hn hv h0 h hf).2, (face_values hs hn hv h0 h hg).1, if_pos hp]
  have hb : before count (after count i) = i := by
    unfold before after
    by_cases h1 : i + 1 = count
    · rw [if_pos h1, if_pos rfl]; omega
    · rw [if_neg h1, if_neg (by omega)]; omega
  have hp' : periodic = true ∨ after count i ≠ 0 := by
    rcases hp with hp | hp
    · exact .inl hp
    · right; unfold after; rw [if_neg hp]; omega
  rw [if_pos hp', hb, add_comm]

/-- C116: The function that an element carries is continuous. -/
theorem profile_continuous (hs : Chain periodic count sites) (hn : ∀ i ∈ indices, i < count) (hv : Valid count sites cache)
    (h : generate nu count sites indices cache = some (d, cache')) {i : ℕ} {f : ℝ → ℝ} (hf : d i = some f) :
    Continuous f := by
  obtain ⟨_, hi, _, rfl⟩ := generated hs hn hv h hf
  exact shape_continuous _ _

/-- C116: In the whole element the profile is at least half the constant of the element, hence never negative, and at most
17/16 of the largest of the constants of the element and its neighbours. -/
theorem profile_bounds (hs : Chain periodic count sites) (hn : ∀ i ∈ indices, i < count) (hv : Valid count sites cache)
    (h0 : ∀ i v, nu i = some v → 0 ≤ v) (h : generate nu count sites indices cache = some (d, cache')) {i : ℕ} {f : ℝ → ℝ}
    (hf : d i = some f) {x : ℝ} (hx : (sites i).xLeft ≤ x) (hx' : x ≤ (sites i).xLeft + (sites i).length) {bound : ℝ}
    (hb : level nu indices i ≤ bound ∧ level nu indices (before count i) ≤ bound ∧ level nu indices (after count i) ≤ bound) :
    level nu indices i / 2 ≤ f x ∧ f x ≤ 17 / 16 * bound := by
  obtain ⟨_, hi, _, rfl⟩ := generated hs hn hv h hf
  obtain ⟨e0, e1, e2⟩ := ends_nonneg (indices := indices) (count := count) h0 i (sites i)
  obtain ⟨b1, b2⟩ := shape_bounds (hs.pos i hi) (hs.center i hi) e0 e1 e2 hx hx'
  have hl0 := level_nonneg (indices := indices) h0 i
  have hE0 : ends nu indices count i (sites i) 0 = level nu indices i := rfl
  have hE1 : ends nu indices count i (sites i) 1 ≤ bound := by
    change (if (sites i).hasLeft then _ else _) ≤ bound
    split_ifs <;> linarith [hb.1, hb.2.1]
  have hE2 : ends nu indices count i (sites i) 2 ≤ bound := by
    change (if (sites i).hasRight then _ else _) ≤ bound
    split_ifs <;> linarith [hb.1, hb.2.2]
  have hb0 : 0 ≤ bound := hl0.trans hb.1
  refine ⟨(le_min (by linarith) (by linarith)).trans b1, b2.trans (max_le (by linarith [hb.1]) (max_le ?_ ?_))⟩ <;> linarith

/-- C116: Where the constant of the element is not below the means with its neighbours, the profile takes it in the
center. -/
theorem center_value (hs : Chain periodic count sites) (hn : ∀ i ∈ indices, i < count) (hv : Valid count sites cache)
    (h0 : ∀ i v, nu i = some v → 0 ≤ v) (h : generate nu count sites indices cache = some (d, cache')) {i : ℕ} {f : ℝ → ℝ}
    (hf : d i = some f) (hl : level nu indices (before count i) ≤ level nu indices i)
    (hr : level nu indices (after count i) ≤ level nu indices i) : f (sites i).xCenter = level nu indices i := by
  obtain ⟨_, hi, _, rfl⟩ := generated hs hn hv h hf
  refine shape_center (ends_nonneg h0 i _).1 ⟨?_, ?_⟩
  · change (if (sites i).hasLeft then _ else _) ≤ level nu indices i
    split_ifs <;> linarith
  · change (if (sites i).hasRight then _ else _) ≤ level nu indices i
    split_ifs <;> linarith

/-- Elements of length 4 side by side. -/
def quads (i : ℕ) : Site := ⟨4 * i, 4, 4 * i + 2, true, true⟩

theorem quads_chain (count : ℕ) : Chain true count quads :=
  ⟨fun _ _ => by norm_num [quads], fun i _ => by simp [quads]; norm_num, fun _ _ => by simp [quads],
    fun _ _ => by simp [quads], fun i _ => by simp [quads]; ring⟩

/-- C116: The factor 17/16 is reached: elements 0 and 1 of 4 have the constant 1, the others none, and the profile of
element 1 goes up to 17/16 a quarter of its length before the center. -/
theorem profile_exceeds : ∃ d cache', generate (fun _ => some 1) 4 quads [0, 1] (fun _ => none) = some (d, cache') ∧
    ∃ f, d 1 = some f ∧ f 5 = 17 / 16 := by
  have hn : ∀ i ∈ [0, 1], i < 4 ∧ ((fun _ => some 1 : ℕ → Option ℝ) i).isSome := by simp
  obtain ⟨d, cache', h, _, hd⟩ := generate_profiles (quads_chain 4) hn (valid_empty 4 quads)
  obtain ⟨f, hf⟩ := Option.isSome_iff_exists.1 ((hd 1).2 (by simp))
  refine ⟨d, cache', h, f, hf, ?_⟩
  obtain ⟨_, _, _, rfl⟩ := generated (quads_chain 4) (fun i hi => (hn i hi).1) (valid_empty 4 quads) h hf
  have e : ends (fun _ => some 1) [0, 1] 4 1 (quads 1) = ![1, 1, 1 / 2] := by
    funext k
    fin_cases k <;> simp [ends, level, quads, before, after]
  rw [e, shape, if_pos (by simp; norm_num), parabola]
  simp [quads]
  norm_num

/-- C116: At the face to an untroubled element, which carries nothing, half the constant is left: there is a jump. -/
theorem jump_to_untroubled (hs : Chain periodic count sites) (hn : ∀ i ∈ indices, i < count) (hv : Valid count sites cache)
    (h0 : ∀ i v, nu i = some v → 0 ≤ v) (h : generate nu count sites indices cache = some (d, cache')) {i : ℕ}
    (hp : periodic = true ∨ i + 1 ≠ count) {f : ℝ → ℝ} (hf : d i = some f) (hu : after count i ∉ indices) :
    d (after count i) = none ∧ f ((sites i).xLeft + (sites i).length) = level nu indices i / 2 := by
  constructor
  · cases hg : d (after count i) with
    | none => rfl
    | some g => exact absurd (generated hs hn hv h hg).1 hu
  · rw [(face_values hs hn hv h0 h hf).2, if_pos hp]
    simp [level, hu]

/-- Elements of length 1 side by side. -/
noncomputable def units (i : ℕ) : Site := ⟨i, 1, i + 1 / 2, true, true⟩

theorem units_chain (count : ℕ) : Chain true count units :=
  ⟨fun _ _ => by norm_num [units], fun i _ => by simp [units], fun _ _ => by simp [units],
    fun _ _ => by simp [units], fun i _ => by simp [units]⟩

/-- C116: The cache is never emptied.  An object that has been used on elements of length 1 and is then used on elements of
length 4 gives a profile without continuity: element 0 has the constant 1, element 1 none, and at the face between them the
profile of element 0 is zero instead of one half. -/
theorem stale_cache : ∃ d1 cache1 d2 cache2,
    generate (fun _ => some 1) 3 units [0] (fun _ => none) = some (d1, cache1) ∧
    generate (fun _ => some 1) 3 quads [0] cache1 = some (d2, cache2) ∧
    ∃ f, d2 0 = some f ∧ f 4 = 0 ∧ (level (fun _ => some 1) [0] 0 + level (fun _ => some 1) [0] 1) / 2 = 1 / 2 := by
  have hdet := det_interfaces (length := 1) one_pos
  have hb : ∀ sites : ℕ → Site, sites = units ∨ sites = quads → ends (fun _ => some 1) [0] 3 0 (sites 0) = ![1, 1 / 2, 1 / 2] := by
    rintro sites (rfl | rfl) <;> funext k <;> fin_cases k <;> simp [ends, level, units, quads, before, after]
  have hfill : fill (fun _ => some (1 : ℝ)) [0] (fun _ => none) =
      some fun i => if i ∈ [0] then some 1 else none := (fill_eq _ _ _ _).2 ⟨by simp, rfl⟩
  have hfaces : ∀ c : Site, c = units 0 ∨ c = quads 0 →
      faces (fun i => if i ∈ [0] then some 1 else none) 3 0 c = some ![1, 1 / 2, 1 / 2] := by
    intro c hc
    have := faces_ends (nu := fun _ => some 1) (indices := [0]) (count := 3) (i := 0) (by norm_num) (by simp) rfl c
    rw [this]
    rcases hc with rfl | rfl
    · rw [hb units (.inl rfl)]
    · rw [hb quads (.inr rfl)]
  have hmax : ¬ (![(1 : ℝ), 1 / 2, 1 / 2] 0 ≠ max (max (![(1 : ℝ), 1 / 2, 1 / 2] 0) (![(1 : ℝ), 1 / 2, 1 / 2] 1)) (![(1 : ℝ), 1 / 2, 1 / 2] 2)) := by
    simp
    norm_num
  have h1 : generate (fun _ => some 1) 3 units [0] (fun _ => none) = some (Function.update (fun _ => none) 0
      (some (shape ![1, 1 / 2, 1 / 2] (units 0))), Function.update (fun _ => none) 0 (some (onInterfaces 1)⁻¹)) := by
    unfold generate
    rw [hfill, Option.bind_some]
    unfold profiles callableCoeff
    rw [hfaces _ (.inl rfl), Option.bind_some]
    unfold callableScalar
    rw [if_neg hmax]
    dsimp only
    rw [show (units 0).length = 1 from rfl, if_neg hdet]
    simp only [Option.map_some, Option.bind_some, profiles]
    congr 4
    funext x
    rw [shape, if_pos (by simp; norm_num), solve one_pos]
    rfl
  refine ⟨_, _, Function.update (fun _ => none) 0 (some fun x => max 0 (1 - 2 * (x - 2) * (x - 2))),
    Function.update (fun _ => none) 0 (some (onInterfaces 1)⁻¹), h1, ?_, _, Function.update_self .., by norm_num, by simp [level]⟩
  · unfold generate
    rw [hfill, Option.bind_some]
    unfold profiles callableCoeff
    rw [hfaces _ (.inr rfl), Option.bind_some]
    unfold callableScalar
    rw [if_neg hmax]
    simp only [Function.update_self, Option.map_some, Option.bind_some, profiles, solve one_pos]
    congr 4
    funext x
    simp [quads]
    congr 1
    ring

end Quadratic

end MiniCFD.PyViscosity
