import Verif.Lemmas.PyViscosity
import Mathlib.Tactic.Linarith
import Mathlib.Tactic.Positivity
import Mathlib.Order.Bounds.Basic

/-! # C113, C114: which elements get artificial viscosity, and what it does to the flux and to the time step -/

namespace MiniCFD.PyViscosity
open MiniCFD.PyDG

/-- C113: What `generate` stores: an entry for every troubled element and for no other; nothing is left of what was stored
before. -/
theorem generate_spec {α : Type*} (f : ℕ → Option α) (indices : List ℕ) (old d : Dict α)
    (h : generate f indices old = some d) :
    ∀ i, (i ∈ indices → d i = f i ∧ (d i).isSome) ∧ (i ∉ indices → d i = none) := by
  obtain ⟨h1, rfl⟩ := (fill_eq f indices _ d).1 h
  intro i
  refine ⟨fun hi => ?_, fun hi => ?_⟩
  · simp only [hi, if_true]
    exact ⟨trivial, h1 i hi⟩
  · simp only [hi, if_false]

/-- C113: `generate` of the constant viscosity and of the one of Persson and Peraire succeeds if every troubled element
has a coefficient. -/
theorem generate_defined {α : Type*} (f : ℕ → Option α) (indices : List ℕ) (old : Dict α) :
    (generate f indices old).isSome ↔ ∀ i ∈ indices, (f i).isSome := by
  rw [Option.isSome_iff_exists]
  constructor
  · rintro ⟨d, h⟩
    exact ((fill_eq f indices _ d).1 h).1
  · intro h
    exact ⟨_, (fill_eq f indices _ _).2 ⟨h, rfl⟩⟩

/-- C113: After `apply_viscosity` every element that the detector reports carries its own coefficient, every other element
carries none, whatever the elements and the viscosity object held before; and the object holds what the elements carry. -/
theorem apply_spec (sc sc' : Scheme) (f : ℕ → Option Extra) (indices : List ℕ)
    (hd : sc.detector = some (some indices)) (hv : sc.viscosity = some (generate f)) (h : applyViscosity sc = some sc') :
    (∀ i < sc.count, (i ∈ indices → sc'.extra i = f i ∧ (sc'.extra i).isSome) ∧ (i ∉ indices → sc'.extra i = none)) ∧
    sc'.count = sc.count ∧ sc'.detector = sc.detector ∧ sc'.viscosity = sc.viscosity ∧
    ∀ i < sc.count, getCellViscosity sc'.stored i = sc'.extra i := by
  unfold applyViscosity at h
  simp only [hd, hv, Option.bind_some, Option.map_eq_some_iff] at h
  obtain ⟨d, hg, rfl⟩ := h
  refine ⟨fun i hi => ?_, rfl, by rw [hd], by rw [hv], fun i hi => by simp only [hi, if_true]⟩
  simp only [hi, if_true, getCellViscosity]
  exact generate_spec f indices _ d hg i

/-- C113: Without a detector or without a viscosity model nothing happens. -/
theorem apply_nothing (sc : Scheme) (h : sc.detector = none ∨ sc.viscosity = none) : applyViscosity sc = some sc := by
  unfold applyViscosity
  rcases h with h | h
  · simp [h]
  · rw [h]
    cases sc.detector <;> rfl

/-- A run of a solver: before each step the detector makes a new report. -/
def applyAll (sc : Scheme) : List (List ℕ) → Option Scheme
  | [] => some sc
  | report :: reports => (applyViscosity { sc with detector := some (some report) }).bind fun sc => applyAll sc reports

/-- C113: After any number of reports, only the last one counts. -/
theorem apply_last (f : ℕ → Option Extra) (last : List ℕ) : ∀ (reports : List (List ℕ)) (sc sc' : Scheme),
    sc.viscosity = some (generate f) → applyAll sc (reports ++ [last]) = some sc' →
    ∀ i < sc.count, (i ∈ last → sc'.extra i = f i ∧ (sc'.extra i).isSome) ∧ (i ∉ last → sc'.extra i = none)
  | [], sc, sc', hv, h => by
    simp only [List.nil_append, applyAll, Option.bind_some, Option.bind_eq_some_iff, Option.some.injEq] at h
    obtain ⟨sc1, h1, rfl⟩ := h
    exact (apply_spec { sc with detector := some (some last) } sc1 f last rfl hv h1).1
  | report :: reports, sc, sc', hv, h => by
    simp only [List.cons_append, applyAll, Option.bind_eq_some_iff] at h
    obtain ⟨sc1, h1, h2⟩ := h
    obtain ⟨_, hc, _, hv1, _⟩ := apply_spec { sc with detector := some (some report) } sc1 f report rfl hv h1
    have := apply_last f last reports sc1 sc' (hv1.trans hv) h2
    rwa [hc] at this

/-- C113: An element without artificial viscosity has the flux of the equation. -/
theorem flux_untroubled (ph : Physics ℝ) (x u du : ℝ) :
    flux ph none x u du = some (if ph.inviscid then ph.convective u else ph.convective u - ph.diffusive u du 0) := by
  unfold flux truthy getExtraViscosity
  cases ph.inviscid <;> simp

/-- C113: An element with a constant or with a varying coefficient loses the coefficient times the slope, for an equation
whose diffusive flux is `(own + extra) * slope`, `own` being zero for inviscid ones. -/
theorem flux_troubled (ph : Physics ℝ) (hd : ∀ u du nu, ph.diffusive u du nu = (ph.coefficient u + nu) * du)
    (hi : ph.inviscid = true → ∀ u, ph.coefficient u = 0) (e : Extra) (f : ℝ → ℝ)
    (he : e = .callable f ∨ ∃ c, e = .float c ∧ f = fun _ => c) (x u du : ℝ) :
    flux ph (some e) x u du = some (ph.convective u - (ph.coefficient u + f x) * du) := by
  unfold flux
  rcases he with rfl | ⟨c, rfl, rfl⟩
  · simp [truthy, getExtraViscosity, hd]
  · by_cases hc : c = 0
    · subst hc
      cases hv : ph.inviscid
      · simp [truthy, getExtraViscosity, hd]
      · simp [truthy, hi hv u]
    · simp [truthy, getExtraViscosity, hd, hc]

/-- C113: A constant that is not a `float`, like `Constant(1)`, makes the flux raise. -/
theorem flux_integer (ph : Physics ℝ) (x u du : ℝ) : flux ph (some (.other true)) x u du = none := by
  simp [flux, truthy, getExtraViscosity]

/-- The constant viscosity on three elements, the middle one being troubled; the old entry of element 0 is dropped. -/
example : ∃ sc', applyViscosity ⟨some (some [1]), some (generate fun _ => some (.float (1 / 10))), fun _ => none, 3,
    fun i => if i = 0 then some (.float 7) else none⟩ = some sc' ∧ sc'.extra 0 = none ∧ sc'.extra 1 = some (.float (1 / 10)) := by
  refine ⟨_, rfl, ?_, ?_⟩ <;> simp [getCellViscosity, Function.update]

/-! ## The time step -/

/-- C114: The suggested time step is the smallest of the given one and those of the elements. -/
theorem delta_t_least (given : ℝ) (suggested : List ℝ) :
    IsLeast {t | t = given ∨ t ∈ suggested} (suggestDeltaT given suggested) := by
  unfold suggestDeltaT
  induction suggested generalizing given with
  | nil => exact ⟨.inl rfl, by rintro t (rfl | h); exacts [le_refl _, absurd h (by simp)]⟩
  | cons a as ih =>
    obtain ⟨h1, h2⟩ := ih (min given a)
    rw [List.foldl_cons]
    refine ⟨?_, ?_⟩
    · rcases h1 with h1 | h1
      · rcases le_total given a with h | h
        · exact .inl (h1.trans (min_eq_left h))
        · exact .inr (by rw [h1, min_eq_right h]; exact List.mem_cons_self)
      · exact .inr (List.mem_cons_of_mem _ h1)
    · rintro t (rfl | h)
      · exact (h2 (.inl rfl)).trans (min_le_left _ _)
      · rcases List.mem_cons.1 h with rfl | h
        · exact (h2 (.inl rfl)).trans (min_le_right _ _)
        · exact h2 (.inr h)

private theorem factor_pos (p : ℕ) : 1 ≤ spatialFactor p := by
  unfold spatialFactor
  split_ifs <;> first | omega | nlinarith [Nat.one_le_two_pow (n := p), Nat.pos_of_ne_zero ‹¬p = 0›]

/-- C114: The step of an element is positive, respects the convective and the diffusive limit, and gets smaller as
viscosity is added. -/
theorem blazek_spec (p : ℕ) {h cfl : ℝ} (hh : 0 < h) (hc : 0 < cfl) (radius own extra : ℝ) (hn : 0 ≤ own + extra) :
    0 < blazek p h radius own extra cfl ∧ blazek p h radius own extra cfl * radius ≤ cfl * h ∧
    blazek p h radius own extra cfl * (own + extra) ≤ cfl * h ^ 2 / spatialFactor p ∧
    ∀ more, extra ≤ more → blazek p h radius own more cfl ≤ blazek p h radius own extra cfl := by
  have hf : (1 : ℝ) ≤ spatialFactor p := by exact_mod_cast factor_pos p
  have key : ∀ e, 0 ≤ own + e → 0 < max radius (1 / 10 ^ 16) + spatialFactor p * ((own + e) / h) := by
    intro e he
    have h1 : 0 < max radius (1 / 10 ^ 16) := lt_max_of_lt_right (by positivity)
    have h2 : 0 ≤ (spatialFactor p : ℝ) * ((own + e) / h) := by positivity
    linarith
  have hk := key extra hn
  unfold blazek
  refine ⟨by positivity, ?_, ?_, fun more hm => ?_⟩
  · have : radius ≤ max radius (1 / 10 ^ 16) + spatialFactor p * ((own + extra) / h) :=
      (le_max_left _ _).trans (le_add_of_nonneg_right (by positivity))
    rw [div_mul_eq_mul_div, div_mul_eq_mul_div, div_le_iff₀ hk]
    have := mul_le_mul_of_nonneg_left this (mul_pos hh hc).le
    linarith
  · have : spatialFactor p * ((own + extra) / h) ≤ max radius (1 / 10 ^ 16) + spatialFactor p * ((own + extra) / h) :=
      le_add_of_nonneg_left ((by positivity : (0 : ℝ) ≤ 1 / 10 ^ 16).trans (le_max_right _ _))
    rw [div_mul_eq_mul_div, div_mul_eq_mul_div, div_le_iff₀ hk, div_mul_eq_mul_div, le_div_iff₀ (by positivity)]
    have e2 : (own + extra) * spatialFactor p = h * (spatialFactor p * ((own + extra) / h)) := by field_simp
    rw [mul_assoc, e2]
    have := mul_le_mul_of_nonneg_left this (by positivity : 0 ≤ h ^ 2 * cfl)
    linarith
  · have hk' := key more (by linarith)
    refine mul_le_mul_of_nonneg_right (div_le_div_of_nonneg_left hh.le hk ?_) hc.le
    have : (own + extra) / h ≤ (own + more) / h := by gcongr
    nlinarith

/-- C114: Without diffusion the step is the CFL number times the time the fastest wave takes to cross the element. -/
theorem blazek_inviscid (p : ℕ) (h radius cfl : ℝ) (hr : 1 / 10 ^ 16 ≤ radius) :
    blazek p h radius 0 0 cfl = cfl * (h / radius) := by
  unfold blazek
  rw [max_eq_left hr]
  simp [mul_comm]

/-- C114: A grid whose elements suggest their steps: no step exceeds the limits of any element. -/
theorem delta_t_limits {ι : Type*} (elements : List ι) (given : ℝ) (p : ℕ) (h radius own extra : ι → ℝ) {cfl : ℝ}
    (hh : ∀ i, 0 < h i) (hc : 0 < cfl) (hn : ∀ i, 0 ≤ own i + extra i) (hg : 0 < given) :
    0 < suggestDeltaT given (elements.map fun i => blazek p (h i) (radius i) (own i) (extra i) cfl) ∧
    suggestDeltaT given (elements.map fun i => blazek p (h i) (radius i) (own i) (extra i) cfl) ≤ given ∧
    ∀ i ∈ elements, 0 ≤ radius i →
      suggestDeltaT given (elements.map fun i => blazek p (h i) (radius i) (own i) (extra i) cfl) * radius i ≤ cfl * h i ∧
      suggestDeltaT given (elements.map fun i => blazek p (h i) (radius i) (own i) (extra i) cfl) * (own i + extra i) ≤
        cfl * h i ^ 2 / spatialFactor p := by
  obtain ⟨h1, h2⟩ := delta_t_least given (elements.map fun i => blazek p (h i) (radius i) (own i) (extra i) cfl)
  set t := suggestDeltaT given (elements.map fun i => blazek p (h i) (radius i) (own i) (extra i) cfl)
  refine ⟨?_, h2 (.inl rfl), fun i hi hr => ?_⟩
  · rcases h1 with h1 | h1
    · rw [h1]; exact hg
    · obtain ⟨i, _, e⟩ := List.mem_map.1 h1
      rw [← e]
      exact (blazek_spec p (hh i) hc _ _ _ (hn i)).1
  · have hle : t ≤ blazek p (h i) (radius i) (own i) (extra i) cfl := h2 (.inr (List.mem_map_of_mem hi))
    obtain ⟨_, b1, b2, _⟩ := blazek_spec p (hh i) hc (radius i) (own i) (extra i) (hn i)
    exact ⟨(mul_le_mul_of_nonneg_right hle hr).trans b1, (mul_le_mul_of_nonneg_right hle (hn i)).trans b2⟩

example : 0 < suggestDeltaT 1 ([1, 2].map fun i : ℕ => blazek 2 (1 / 10) 1 0 i (209 / 1000)) :=
  (delta_t_limits [1, 2] 1 2 (fun _ => 1 / 10) (fun _ => 1) (fun _ => 0) (fun i : ℕ => (i : ℝ)) (by norm_num) (by norm_num)
    (fun i => by positivity) one_pos).1

end MiniCFD.PyViscosity
