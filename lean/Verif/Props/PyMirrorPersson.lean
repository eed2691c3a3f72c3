import Verif.Props.PyMirrorDetector
import Verif.Props.PyViscosity
import Verif.Props.PyViscosityPersson

/-! # C154: the viscosity of Persson and Peraire in a mirror -/

namespace MiniCFD.PyMirrorPersson
open MiniCFD.PyQuad MiniCFD.PyExpansion MiniCFD.PyDG MiniCFD.PyDetector MiniCFD.PyViscosity MiniCFD.PyMirrorDetector
open MiniCFD.Spec.PyMirror
open MiniCFD.Spec.Gauss (ExactTo)

variable {p m n : ℕ} {M : Value m →L[ℝ] Value m} {w : ℝ} {co co' : Coordinate} {c c' : Cell p m}

/-- The element is as long as its image. -/
theorem length_mirror (h : Couple M w co co' c c') : c'.setup.coordinate.length = c.setup.coordinate.length := by
  rw [(h.built.sane h.pos).2, (h.built'.sane h.pos').2, co.eq_linear.1, co'.eq_linear.1, h.opposite.left, h.opposite.right]
  ring

/-- C154: The viscosity of the image is the viscosity, and it is refused for the image exactly if it is refused. -/
theorem coefficient_mirror (hM : ∀ u k, |M u k| = |u k|) (kappa : ℝ) (h : Couple M w co co' c c') :
    perssonCoeff kappa c'.setup c'.state = perssonCoeff kappa c.setup c.state := by
  have hs : perssonSensor c'.setup c'.state = perssonSensor c.setup c.state := by
    unfold perssonSensor
    rw [h.kind]
    by_cases hk : c.setup.kind = .modal
    · have he := fun k i => energy_mirror hM h hk k i
      simp only [hk, he]
    · cases hs : c.setup.kind <;> first | exact absurd hs hk | rfl
  unfold perssonCoeff
  rw [hs, length_mirror h]

/-! ### On a grid -/

/-- `_get_constant_coeff(grid, ·)` for the indices of the elements. -/
noncomputable def constants (kappa : ℝ) (cells : Fin (n + 1) → Cell p m) (i : ℕ) : Option ℝ :=
  if h : i < n + 1 then perssonCoeff kappa (cells ⟨i, h⟩).setup (cells ⟨i, h⟩).state else none

theorem constants_mirror (hM : ∀ u k, |M u k| = |u k|) (kappa : ℝ) {cells cells' : Fin (n + 1) → Cell p m}
    (h : ∀ i, ∃ co co', Couple M w co co' (cells i) (cells' i.rev)) {i : ℕ} (hi : i < n + 1) :
    constants kappa cells' (n - i) = constants kappa cells i := by
  obtain ⟨_, _, hc⟩ := h ⟨i, hi⟩
  have e : (⟨n - i, by omega⟩ : Fin (n + 1)) = Fin.rev ⟨i, hi⟩ := by
    ext
    rw [Fin.val_rev]
    show n - i = n + 1 - (i + 1)
    omega
  unfold constants
  rw [dif_pos hi, dif_pos (by omega), e, coefficient_mirror hM kappa hc]

/-- C154: If the images of the troubled elements are reported on the image of the grid, then `generate` succeeds there
exactly if it succeeds on the grid, whatever was stored before, and it stores the image of the viscosity. -/
theorem viscosity_mirror (hM : ∀ u k, |M u k| = |u k|) (kappa : ℝ) {cells cells' : Fin (n + 1) → Cell p m}
    (h : ∀ i, ∃ co co', Couple M w co co' (cells i) (cells' i.rev)) {indices indices' : List ℕ}
    (hi : ∀ i ∈ indices, i < n + 1) (hi' : ∀ i ∈ indices', i < n + 1) (mem : ∀ i < n + 1, n - i ∈ indices' ↔ i ∈ indices)
    (old old' : Dict ℝ) :
    ((generate (constants kappa cells') indices' old').isSome ↔ (generate (constants kappa cells) indices old).isSome) ∧
      ∀ d d', generate (constants kappa cells) indices old = some d → generate (constants kappa cells') indices' old' = some d' →
        ∀ i < n + 1, getCellViscosity d' (n - i) = getCellViscosity d i := by
  constructor
  · rw [generate_defined, generate_defined]
    constructor
    · intro hd i hm
      rw [← constants_mirror hM kappa h (hi i hm)]
      exact hd _ ((mem i (hi i hm)).2 hm)
    · intro hd i hm
      have hlt := hi' i hm
      have e : n - (n - i) = i := by omega
      have := constants_mirror hM kappa h (show n - i < n + 1 by omega)
      rw [e] at this
      rw [this]
      exact hd _ ((mem (n - i) (by omega)).1 (by rwa [e]))
  · intro d d' hd hd' i hlt
    have s := generate_spec _ _ _ _ hd i
    have s' := generate_spec _ _ _ _ hd' (n - i)
    unfold getCellViscosity
    by_cases hm : i ∈ indices
    · rw [(s.1 hm).1, (s'.1 ((mem i hlt).2 hm)).1, constants_mirror hM kappa h hlt]
    · rw [s.2 hm, s'.2 fun h => hm ((mem i hlt).1 h)]

/-- The function `2 x` on the element from 0 to 1 and its image `2 - 2 x`; the viscosity is defined. -/
example (roots : Rule 1) (exact : ExactTo roots.apply 3) : ∃ cell cell' : Cell 1 0,
    (∀ x, cell.setup.value cell.state x = fun _ => 2 * x) ∧ (∀ x, cell'.setup.value cell'.state x = fun _ => 2 - 2 * x) ∧
    Couple (ContinuousLinearMap.id ℝ (Value 0)) 1 (.linear 0 1) (.linear 0 1) cell cell' ∧
    ∃ nu, perssonCoeff 2 cell.setup cell.state = some nu ∧ perssonCoeff 2 cell'.setup cell'.state = some nu := by
  have hc : (Coordinate.linear 0 1).xLeft < (Coordinate.linear 0 1).xRight := by norm_num [Coordinate.xLeft, Coordinate.xRight]
  obtain ⟨s, hs⟩ := modal_defined hc roots
  have hk := (modal_sane hc hs).2.1
  have hB : Built (.linear 0 1) s := .modal _ exact hs
  have hr : ∀ a : Fin 2 → Value 0, Reached s (setCoeff s a) := fun a => .coeff a rfl
  have hv : ∀ (a b x : ℝ), s.value (setCoeff s ![fun _ => a, fun _ => b] : State 1 (Value 0)) x = fun _ => a + b * (2 * x - 1) := by
    intro a b x
    funext k
    rw [value_eq hc hB (hr _), Fin.sum_univ_two, (modal_sane hc hs).2.2.2.2.2, (modal_sane hc hs).2.2.2.2.2]
    simp [setCoeff, Vincent.legendre, Coordinate.globalToLocal]
    ring
  have h : Couple (ContinuousLinearMap.id ℝ (Value 0)) 1 (.linear 0 1) (.linear 0 1)
      ⟨s, setCoeff s ![fun _ => 1, fun _ => 1], none, none⟩ ⟨s, setCoeff s ![fun _ => 1, fun _ => -1], none, none⟩ := by
    refine ⟨hc, ?_, hB, hB, rfl, fun h => ?_, hr _, hr _, fun x => ?_, .none, .none⟩
    · constructor <;> simp [Coordinate.xLeft, Coordinate.xRight]
    · rw [hk] at h; cases h
    · rw [hv, hv]
      funext k
      show 1 + -1 * (2 * x - 1) = 1 + 1 * (2 * (1 - x) - 1)
      ring
  obtain ⟨nu, e, _⟩ := persson_linear_half (kappa := 2) (by norm_num) hc hB hk (hr ![fun _ => 1, fun _ => 1])
  refine ⟨_, _, fun x => ?_, fun x => ?_, h, nu, e, (coefficient_mirror (fun _ _ => rfl) 2 h).trans e⟩
  · rw [hv]; funext k; ring
  · rw [hv]; funext k; ring

end MiniCFD.PyMirrorPersson
