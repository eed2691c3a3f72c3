import Verif.Lemmas.PyViscosity
import Verif.Props.PyDissipationRate
import Verif.Props.PyLimiter
import Mathlib.Order.Bounds.Basic

/-! # C118: the constant of the energy-based viscosity -/

namespace MiniCFD.PyViscosity
open MiniCFD.PyQuad MiniCFD.PyExpansion MiniCFD.PyDG MiniCFD.PyFR MiniCFD.PyLimiter MiniCFD.PyDissipation Polynomial
open MiniCFD.Spec.Gauss (ExactTo)
open MiniCFD.Spec.PyPoly (IsPair)

variable {p n : ℕ} {c c' : Coordinate} {s : Setup p} {roots : (m : ℕ) → Rule m}

/-! ### The line that is borrowed -/

private theorem shifted_pos (hc' : c'.xLeft < c'.xRight) (b : Neighbour p ℝ) (hb : Built c' b.setup) :
    (Coordinate.shifted b.setup.coordinate b.shift).xLeft < (Coordinate.shifted b.setup.coordinate b.shift).xRight := by
  rw [(hb.sane hc').2]
  simpa [Coordinate.xLeft, Coordinate.xRight] using hc'

/-- C118: The candidate of low order is the line that has the values of the neighbour at its two points of Gauss. -/
theorem low_line (exact : ExactTo (roots 1).apply 3) (hc' : c'.xLeft < c'.xRight) (b : Neighbour p ℝ) (hb : Built c' b.setup) :
    ∃ l, low roots b = some l ∧ (∃ α β, ∀ x, l x = α + β * x) ∧
      ∀ j, l (c'.localToGlobal ((roots 1).x j) + b.shift) = b.value (c'.localToGlobal ((roots 1).x j) + b.shift) := by
  have hpos := shifted_pos hc' b hb
  obtain ⟨s1, h1⟩ := modal_defined hpos (roots 1)
  refine ⟨_, by rw [low, h1]; rfl, ?_, fun j => ?_⟩
  · have hv := value_eq hpos (.modal _ exact h1) (.approximate b.value rfl)
    choose q hq hqv _ using basis_poly hpos (.modal _ exact h1)
    have hd : (∑ i, C ((approximate s1 b.value).coeff i) * q i).natDegree ≤ 1 :=
      natDegree_sum_le_of_forall_le _ _ fun i _ => (natDegree_C_mul_le _ _).trans (hq i)
    obtain ⟨β, α, e⟩ := exists_eq_X_add_C_of_natDegree_le_one hd
    refine ⟨α, β, fun x => ?_⟩
    dsimp only
    rw [hv]
    have := congrArg (fun P : ℝ[X] => P.eval x) e
    simp only [eval_finset_sum, eval_mul, eval_C, eval_add, eval_X] at this
    refine Eq.trans ?_ (this.trans (add_comm _ _))
    exact Finset.sum_congr rfl fun i _ => by rw [hqv, smul_eq_mul, mul_comm]
  · have := modal_interpolates hpos exact h1 b.value j
    simp only [Coordinate.localToGlobal, (hb.sane hc').2] at this ⊢
    exact this

private theorem roots_ne (exact : ExactTo (roots 1).apply 3) : (roots 1).x 0 ≠ (roots 1).x 1 := by
  intro h
  exact absurd (gauss_injective (p := 1) exact h) (by decide)

/-- C118: For a neighbour that is a line, it is the neighbour. -/
theorem low_of_line (exact : ExactTo (roots 1).apply 3) (hc' : c'.xLeft < c'.xRight) (b : Neighbour p ℝ)
    (hb : Built c' b.setup) {α β : ℝ} (hl : ∀ x, b.value x = α + β * x) : low roots b = some b.value := by
  obtain ⟨l, e, ⟨α', β', h1⟩, h2⟩ := low_line exact hc' b hb
  rw [e]
  congr 1
  have hne : c'.localToGlobal ((roots 1).x 0) ≠ c'.localToGlobal ((roots 1).x 1) := by
    intro h
    have := congrArg c'.globalToLocal h
    rw [(coordinate_spec c' hc').1, (coordinate_spec c' hc').1] at this
    exact roots_ne exact this
  have e0 := h2 0
  have e1 := h2 1
  rw [h1, hl] at e0 e1
  have hβ : β' = β := by
    have : (β' - β) * (c'.localToGlobal ((roots 1).x 0) - c'.localToGlobal ((roots 1).x 1)) = 0 := by linear_combination e0 - e1
    rcases mul_eq_zero.1 this with h | h
    · linarith
    · exact absurd (sub_eq_zero.1 h) hne
  subst hβ
  funext x
  rw [h1, hl]
  linarith

/-! ### The energy -/

private theorem energy_nonneg (hc : c.xLeft < c.xRight) (h : Built c s) (jumps : Fin (p + 1) → ℝ) :
    0 ≤ jumpsToEnergy s jumps (lowerHalf p) ∧ 0 ≤ jumpsToEnergy s jumps (upperHalf p) := by
  have hw := (built_integrator hc h).1
  rw [lower_sum, upper_sum]
  constructor <;> refine Finset.sum_nonneg fun k _ => ?_ <;> split_ifs
  · have := hw k; positivity
  · exact le_refl _
  · have := hw k; positivity
  · exact le_refl _

private theorem lower_zero (hc : c.xLeft < c.xRight) (h : Built c s) (values : Fin (p + 1) → ℝ) (g : ℝ → ℝ) :
    jumpsToEnergy s (halfJumps s.points values g) (lowerHalf p) = 0 ↔
      ∀ k : Fin (p + 1), 2 * (k : ℕ) ≤ p → values k = g (s.points k) := by
  have hw := (built_integrator hc h).1
  rw [lower_sum, Finset.sum_eq_zero_iff_of_nonneg]
  · refine ⟨fun e k hk => ?_, fun e k _ => ?_⟩
    · have := e k (Finset.mem_univ _)
      rw [if_pos hk, div_eq_zero_iff, or_iff_left two_ne_zero, mul_eq_zero, or_iff_right (hw k).ne', sq_eq_zero_iff, half_zero] at this
      exact this
    · split_ifs with hk
      · rw [half_zero.2 (e k hk)]; simp
      · rfl
  · intro k _
    have := hw k
    split_ifs <;> positivity

private theorem upper_zero (hc : c.xLeft < c.xRight) (h : Built c s) (values : Fin (p + 1) → ℝ) (g : ℝ → ℝ) :
    jumpsToEnergy s (halfJumps s.points values g) (upperHalf p) = 0 ↔
      ∀ k : Fin (p + 1), p ≤ 2 * (k : ℕ) → values k = g (s.points k) := by
  have hw := (built_integrator hc h).1
  rw [upper_sum, Finset.sum_eq_zero_iff_of_nonneg]
  · refine ⟨fun e k hk => ?_, fun e k _ => ?_⟩
    · have := e k (Finset.mem_univ _)
      rw [if_pos hk, div_eq_zero_iff, or_iff_left two_ne_zero, mul_eq_zero, or_iff_right (hw k).ne', sq_eq_zero_iff, half_zero] at this
      exact this
    · split_ifs with hk
      · rw [half_zero.2 (e k hk)]; simp
      · rfl
  · intro k _
    have := hw k
    split_ifs <;> positivity

/-- The neighbours of an element, made by the constructors. -/
def Made (b : Option (Neighbour p ℝ)) : Prop := ∀ b', b = some b' → ∃ c' : Coordinate, c'.xLeft < c'.xRight ∧ Built c' b'.setup

private theorem half_defined (exact : ExactTo (roots 1).apply 3) (values : Fin (p + 1) → ℝ) (indices : List (Fin (p + 1)))
    {b : Option (Neighbour p ℝ)} (hb : Made b) : ∃ e, halfEnergy roots s values indices b = some e := by
  cases b with
  | none => exact ⟨0, rfl⟩
  | some b =>
    obtain ⟨c', hc', hbb⟩ := hb b rfl
    obtain ⟨l, hl, _⟩ := low_line exact hc' b hbb
    exact ⟨_, by rw [halfEnergy, hl]; rfl⟩

/-- What it means that an element agrees with a neighbour on the points of its closer half: with the neighbour's polynomial
throughout, or with the neighbour's line throughout. -/
def Agrees (roots : (m : ℕ) → Rule m) (s : Setup p) (u : ℝ → ℝ) (closer : Fin (p + 1) → Prop) (b : Option (Neighbour p ℝ)) : Prop :=
  ∀ b', b = some b' → (∀ k, closer k → u (s.points k) = b'.value (s.points k)) ∨
    ∃ l, low roots b' = some l ∧ ∀ k, closer k → u (s.points k) = l (s.points k)

/-- C118: The energy of the oscillation is defined, not negative, and zero exactly if the element agrees with each of its
neighbours on the half that is closer to it. -/
theorem oscillation_spec (exact : ExactTo (roots 1).apply 3) (hc : c.xLeft < c.xRight) (h : Built c s)
    (hk : s.kind = .legendreRoots) {st : State p ℝ} (hr : Reached s st) {left right : Option (Neighbour p ℝ)}
    (hl : Made left) (hr' : Made right) :
    ∃ e, oscillationEnergy roots s st left right = some e ∧ 0 ≤ e ∧
      (e = 0 ↔ Agrees roots s (s.value st) (fun k => 2 * (k : ℕ) ≤ p) left ∧
        Agrees roots s (s.value st) (fun k => p ≤ 2 * (k : ℕ)) right) := by
  have hval : ∀ k, s.value st (s.points k) = nodeDerivatives s st k 0 := fun k => by
    rw [value_at_points hc h (by simp [hk]) hr]; rfl
  set values := fun i => nodeDerivatives s st i 0
  have lefts : ∃ e, halfEnergy roots s values (lowerHalf p) left = some e ∧ 0 ≤ e ∧
      (e = 0 ↔ Agrees roots s (s.value st) (fun k => 2 * (k : ℕ) ≤ p) left) := by
    cases left with
    | none => exact ⟨0, rfl, le_refl _, by simp [Agrees]⟩
    | some b =>
      obtain ⟨c', hc', hbb⟩ := hl b rfl
      obtain ⟨l, hl, _⟩ := low_line exact hc' b hbb
      refine ⟨_, by rw [halfEnergy, hl]; rfl, le_min (energy_nonneg hc h _).1 (energy_nonneg hc h _).1, ?_⟩
      have key : ∀ a b : ℝ, 0 ≤ a → 0 ≤ b → (min a b = 0 ↔ b = 0 ∨ a = 0) := by
        intro a b ha hb
        constructor
        · intro e
          rcases min_choice a b with h | h <;> rw [h] at e
          · exact .inr e
          · exact .inl e
        · rintro (e | e)
          · rw [e, min_eq_right ha]
          · rw [e, min_eq_left hb]
      rw [key _ _ (energy_nonneg hc h _).1 (energy_nonneg hc h _).1, lower_zero hc h, lower_zero hc h]
      simp only [Agrees, Option.some.injEq, forall_eq', hval, hl, exists_eq_left', values]
  have rights : ∃ e, halfEnergy roots s values (upperHalf p) right = some e ∧ 0 ≤ e ∧
      (e = 0 ↔ Agrees roots s (s.value st) (fun k => p ≤ 2 * (k : ℕ)) right) := by
    cases right with
    | none => exact ⟨0, rfl, le_refl _, by simp [Agrees]⟩
    | some b =>
      obtain ⟨c', hc', hbb⟩ := hr' b rfl
      obtain ⟨l, hl, _⟩ := low_line exact hc' b hbb
      refine ⟨_, by rw [halfEnergy, hl]; rfl, le_min (energy_nonneg hc h _).2 (energy_nonneg hc h _).2, ?_⟩
      have key : ∀ a b : ℝ, 0 ≤ a → 0 ≤ b → (min a b = 0 ↔ b = 0 ∨ a = 0) := by
        intro a b ha hb
        constructor
        · intro e
          rcases min_choice a b with h | h <;> rw [h] at e
          · exact .inr e
          · exact .inl e
        · rintro (e | e)
          · rw [e, min_eq_right ha]
          · rw [e, min_eq_left hb]
      rw [key _ _ (energy_nonneg hc h _).2 (energy_nonneg hc h _).2, upper_zero hc h, upper_zero hc h]
      simp only [Agrees, Option.some.injEq, forall_eq', hval, hl, exists_eq_left', values]
  obtain ⟨a, ea, ha, za⟩ := lefts
  obtain ⟨b, eb, hb, zb⟩ := rights
  refine ⟨a + b, ?_, by linarith, ?_⟩
  · unfold oscillationEnergy
    dsimp only
    rw [ea, Option.bind_some, eb]
    rfl
  · rw [← za, ← zb]
    constructor
    · intro e; constructor <;> linarith
    · rintro ⟨rfl, rfl⟩; simp

/-- C118: The two halves together count every point once: compared with one polynomial from both sides, the energy is
half the integral of the square of the difference. -/
theorem halves_integral (hc : c.xLeft < c.xRight) (h : Built c s) (hk : s.kind = .legendreRoots) {st : State p ℝ}
    (hr : Reached s st) (G : ℝ[X]) (hG : G.natDegree ≤ p) :
    jumpsToEnergy s (halfJumps s.points (fun i => nodeDerivatives s st i 0) fun x => G.eval x) (lowerHalf p) +
      jumpsToEnergy s (halfJumps s.points (fun i => nodeDerivatives s st i 0) fun x => G.eval x) (upperHalf p) =
      (∫ x in c.xLeft..c.xRight, (s.value st x - G.eval x) ^ 2) / 2 := by
  have hval : ∀ k, nodeDerivatives s st k 0 = s.value st (s.points k) := fun k => by
    rw [value_at_points hc h (by simp [hk]) hr]; rfl
  have hpts := points_eq hc h (.inl hk)
  choose q hq hqv _ using basis_poly hc h
  set U : ℝ[X] := ∑ i, C (st.coeff i) * q i with hU
  have hUd : U.natDegree ≤ p := natDegree_sum_le_of_forall_le _ _ fun i _ => (natDegree_C_mul_le _ _).trans (hq i)
  have hUv : ∀ x, s.value st x = U.eval x := by
    intro x
    rw [value_eq hc h hr, hU, eval_finset_sum]
    exact Finset.sum_congr rfl fun i _ => by rw [eval_mul, eval_C, hqv, smul_eq_mul, mul_comm]
  have hW : ((U - G) ^ 2).natDegree ≤ 2 * p + 1 := by
    have h1 : (U - G).natDegree ≤ p := (natDegree_sub_le _ _).trans (max_le hUd hG)
    exact natDegree_pow_le.trans (by omega)
  have hint := integrate_poly hc h (by simp [hk]) ((U - G) ^ 2) (.inr ⟨hW, by simp [hk]⟩)
  simp only [eval_pow, eval_sub, ← hUv] at hint
  rw [← hint, Integrator.integrate_eq, lower_sum, upper_sum, ← Finset.sum_add_distrib, Finset.sum_div]
  refine Finset.sum_congr rfl fun k _ => ?_
  rw [half_sq, hval, hpts, smul_eq_mul]
  rcases lt_trichotomy (2 * (k : ℕ)) p with hlt | heq | hgt
  · rw [if_pos hlt.le, if_neg (not_le.2 hlt), if_neg hlt.ne]; ring
  · rw [if_pos heq.le, if_pos heq.ge, if_pos heq]; ring
  · rw [if_neg (not_le.2 hgt), if_pos hgt.le, if_neg hgt.ne']; ring

/-- C118: Between two neighbours with the same polynomial, the energy is at most half the integral of the square of the
difference to it. -/
theorem oscillation_le (exact : ExactTo (roots 1).apply 3) (hc : c.xLeft < c.xRight) (h : Built c s)
    (hk : s.kind = .legendreRoots) {st : State p ℝ} (hr : Reached s st) {l r : Neighbour p ℝ}
    (hl : Made (some l)) (hr' : Made (some r)) (G : ℝ[X]) (hG : G.natDegree ≤ p) (hlG : ∀ x, l.value x = G.eval x)
    (hrG : ∀ x, r.value x = G.eval x) {e : ℝ} (he : oscillationEnergy roots s st (some l) (some r) = some e) :
    e ≤ (∫ x in c.xLeft..c.xRight, (s.value st x - G.eval x) ^ 2) / 2 := by
  rw [← halves_integral hc h hk hr G hG]
  obtain ⟨cl, hcl, hbl⟩ := hl l rfl
  obtain ⟨cr, hcr, hbr⟩ := hr' r rfl
  obtain ⟨ll, hll, _⟩ := low_line exact hcl l hbl
  obtain ⟨lr, hlr, _⟩ := low_line exact hcr r hbr
  unfold oscillationEnergy halfEnergy at he
  simp only [hll, hlr, Option.map_some, Option.bind_some, Option.some.injEq] at he
  rw [← he, show l.value = fun x => G.eval x from _root_.funext hlG, show r.value = fun x => G.eval x from _root_.funext hrG]
  exact add_le_add (min_le_right _ _) (min_le_right _ _)

/-! ### The coefficient -/

/-- C118: The upper limit is the length over the degree times the largest wave speed at the nodes. -/
theorem max_nu_spec {radius : ℝ → ℝ} (hrad : ∀ u, 0 ≤ radius u) (hl : 0 < s.coordinate.length) (st : State p ℝ) :
    ∃ a, maxNu radius s st = s.coordinate.length / p * a ∧ IsGreatest (Set.range fun i => radius (st.coeff i)) a := by
  refine ⟨_, rfl, ?_⟩
  have key : ∀ (l : List (Fin (p + 1))) (a : ℝ), (∀ i ∈ l, radius (st.coeff i) ≤ l.foldl (fun a i => max a (radius (st.coeff i))) a) ∧
      a ≤ l.foldl (fun a i => max a (radius (st.coeff i))) a ∧
      (l.foldl (fun a i => max a (radius (st.coeff i))) a = a ∨ ∃ i ∈ l, l.foldl (fun a i => max a (radius (st.coeff i))) a = radius (st.coeff i)) := by
    intro l
    induction l with
    | nil => intro a; exact ⟨by simp, le_refl _, .inl rfl⟩
    | cons j l ih =>
      intro a
      obtain ⟨h1, h2, h3⟩ := ih (max a (radius (st.coeff j)))
      rw [List.foldl_cons]
      refine ⟨?_, (le_max_left _ _).trans h2, ?_⟩
      · intro i hi
        rcases List.mem_cons.1 hi with rfl | hi
        · exact (le_max_right _ _).trans h2
        · exact h1 i hi
      · rcases h3 with h3 | ⟨i, hi, h3⟩
        · rcases max_choice a (radius (st.coeff j)) with e | e
          · exact .inl (h3.trans e)
          · exact .inr ⟨j, List.mem_cons_self, h3.trans e⟩
        · exact .inr ⟨i, List.mem_cons_of_mem _ hi, h3⟩
  obtain ⟨h1, h2, h3⟩ := key (List.finRange (p + 1)) 0
  constructor
  · rcases h3 with h3 | ⟨i, _, h3⟩
    · refine ⟨0, ?_⟩
      dsimp only
      rw [h3]
      have := h1 0 (List.mem_finRange _)
      rw [h3] at this
      exact le_antisymm this (hrad _)
    · exact ⟨i, h3.symm⟩
  · rintro _ ⟨i, rfl⟩
    exact h1 i (List.mem_finRange _)

private theorem coeff_eq {tau : ℝ} {radius : ℝ → ℝ} {m : Matrices p} {st : State p ℝ} {left right : Option (Neighbour p ℝ)}
    {nu : ℝ} (h : constantCoeff roots tau radius m s st left right = some nu) :
    s.kind = .legendreRoots ∧ p ≠ 0 ∧ ∃ r e, rate m s st.coeff = some r ∧ oscillationEnergy roots s st left right = some e ∧
      nu = min (e / (-r * tau)) (maxNu radius s st) := by
  unfold constantCoeff at h
  cases hk : s.kind <;> rw [hk] at h <;> try cases h
  simp only [Option.bind_eq_some_iff] at h
  obtain ⟨r, hr, e, he, h⟩ := h
  by_cases hp : p = 0
  · rw [if_pos hp] at h; cases h
  · rw [if_neg hp] at h
    exact ⟨rfl, hp, r, e, hr, he, (Option.some.inj h).symm⟩

/-- C118: The constant is between zero and the upper limit; it is zero where the element agrees with its neighbours; with
it, the dissipation in the time `τ` is at most the energy of the oscillation, and just that energy unless the upper limit
is reached. -/
theorem coefficient_spec (exact : ExactTo (roots 1).apply 3) (hc : c.xLeft < c.xRight) (h : Built c s) {st : State p ℝ}
    (hr : Reached s st) {left right : Option (Neighbour p ℝ)} (hl : Made left) (hr' : Made right) {tau : ℝ} (ht : 0 < tau)
    {radius : ℝ → ℝ} (hrad : ∀ u, 0 ≤ radius u) {m : Matrices p} {nu : ℝ}
    (hn : constantCoeff roots tau radius m s st left right = some nu) :
    0 ≤ nu ∧ nu ≤ maxNu radius s st ∧
    (Agrees roots s (s.value st) (fun k => 2 * (k : ℕ) ≤ p) left →
      Agrees roots s (s.value st) (fun k => p ≤ 2 * (k : ℕ)) right → nu = 0) ∧
    ∃ r e, rate m s st.coeff = some r ∧ r < 0 ∧ oscillationEnergy roots s st left right = some e ∧
      nu * -r * tau ≤ e ∧ (nu < maxNu radius s st → nu * -r * tau = e) := by
  obtain ⟨hk, hp, r, e, h1, h2, h3⟩ := coeff_eq hn
  have hr0 : r < 0 := by
    unfold rate at h1
    dsimp only at h1
    split_ifs at h1 with hneg
    cases h1
    exact hneg
  obtain ⟨e', h2', he0, hz⟩ := oscillation_spec exact hc h hk hr hl hr'
  rw [h2] at h2'
  cases h2'
  have hpos : 0 < -r * tau := mul_pos (by linarith) ht
  have hlen : 0 < s.coordinate.length := by
    rw [(h.sane hc).2, c.eq_linear.1]; linarith
  obtain ⟨a, ha, hg⟩ := max_nu_spec (s := s) hrad hlen st
  have hmax : 0 ≤ maxNu radius s st := by
    obtain ⟨i, hi⟩ := hg.1
    rw [ha, ← hi]
    exact mul_nonneg (by positivity) (hrad _)
  refine ⟨?_, ?_, fun g1 g2 => ?_, r, e, h1, hr0, h2, ?_, fun hlt => ?_⟩
  · rw [h3]; exact le_min (div_nonneg he0 hpos.le) hmax
  · rw [h3]; exact min_le_right _ _
  · rw [h3, hz.2 ⟨g1, g2⟩, zero_div, min_eq_left hmax]
  · have : nu ≤ e / (-r * tau) := by rw [h3]; exact min_le_left _ _
    rw [le_div_iff₀ hpos] at this
    linarith
  · have : nu = e / (-r * tau) := by
      rcases min_choice (e / (-r * tau)) (maxNu radius s st) with g | g
      · rw [h3, g]
      · rw [h3, g] at hlt; exact absurd hlt (lt_irrefl _)
    rw [this, mul_assoc]
    exact div_mul_cancel₀ _ hpos.ne'

/-! ### On a grid -/

private theorem neighbours_made {co : Fin (n + 2) → Coordinate} (hc : ∀ i, (co i).xLeft < (co i).xRight) (grid : Grid p n ℝ)
    (hb : ∀ i, Built (co i) (grid.cells i).setup) (i : Fin (n + 2)) :
    Made (leftNeighbour grid i) ∧ Made (rightNeighbour grid i) := by
  constructor
  · intro b e
    obtain ⟨j, _, rfl⟩ := Option.map_eq_some_iff.1 e
    exact ⟨co j, hc j, hb j⟩
  · intro b e
    obtain ⟨j, _, rfl⟩ := Option.map_eq_some_iff.1 e
    exact ⟨co j, hc j, hb j⟩

/-- C118: What an element is compared with: the solution of the element at its left, moved to where it continues the grid,
and the same at its right.  At the ends of a grid that is not periodic there is nothing. -/
theorem neighbours_spec {co : Fin (n + 2) → Coordinate} (hc : ∀ i, (co i).xLeft < (co i).xRight) (grid : Grid p n ℝ)
    (hb : ∀ i, Built (co i) (grid.cells i).setup) :
    (∀ i : Fin (n + 1), ∃ b, leftNeighbour grid i.succ = some b ∧ b.value = (grid.cells i.castSucc).setup.value (grid.cells i.castSucc).state) ∧
    (∀ i : Fin (n + 1), ∃ b, rightNeighbour grid i.castSucc = some b ∧ b.value = (grid.cells i.succ).setup.value (grid.cells i.succ).state) ∧
    (grid.boundary = none →
      (∃ b, leftNeighbour grid 0 = some b ∧ (co (Fin.last _)).xRight + b.shift = (co 0).xLeft ∧
        ∀ x, b.value (x + b.shift) = (grid.cells (Fin.last _)).setup.value (grid.cells (Fin.last _)).state x) ∧
      (∃ b, rightNeighbour grid (Fin.last _) = some b ∧ (co 0).xLeft + b.shift = (co (Fin.last _)).xRight ∧
        ∀ x, b.value (x + b.shift) = (grid.cells 0).setup.value (grid.cells 0).state x)) ∧
    (grid.boundary ≠ none → leftNeighbour grid 0 = none ∧ rightNeighbour grid (Fin.last _) = none) := by
  have hco : ∀ i, (grid.cells i).setup.coordinate = co i := fun i => ((hb i).sane (hc i)).2
  refine ⟨fun i => ?_, fun i => ?_, fun h => ⟨?_, ?_⟩, fun h => ⟨?_, ?_⟩⟩
  · have h0 : i.succ ≠ 0 := Fin.succ_ne_zero i
    have h1 : i.succ - 1 = i.castSucc := by
      rw [sub_eq_iff_eq_add]; exact (Fin.coeSucc_eq_succ).symm
    refine ⟨_, by rw [leftNeighbour, leftOf, if_neg h0, if_neg h0, h1]; rfl, ?_⟩
    funext x
    simp [Neighbour.value]
  · have h0 : i.castSucc ≠ Fin.last _ := (Fin.castSucc_lt_last i).ne
    refine ⟨_, by rw [rightNeighbour, rightOf, if_neg h0, if_neg h0, Fin.coeSucc_eq_succ]; rfl, ?_⟩
    funext x
    simp [Neighbour.value]
  · refine ⟨_, by rw [leftNeighbour, leftOf, if_pos rfl, h]; rfl, ?_, fun x => by simp [Neighbour.value]⟩
    simp only [if_true, gridLength, hco]
    ring
  · refine ⟨_, by rw [rightNeighbour, rightOf, if_pos rfl, if_pos rfl, h]; rfl, ?_, fun x => by simp [Neighbour.value]⟩
    simp only [if_true, gridLength, hco]
    ring
  · obtain ⟨b, hb⟩ := Option.ne_none_iff_exists'.1 h
    rw [leftNeighbour, leftOf, if_pos rfl, hb]; rfl
  · obtain ⟨b, hb⟩ := Option.ne_none_iff_exists'.1 h
    rw [rightNeighbour, rightOf, if_pos rfl, if_pos rfl, hb]; rfl

/-- C118: Where the element and its neighbours are parts of one polynomial, there is no viscosity. -/
theorem coefficient_smooth (exact : ExactTo (roots 1).apply 3) {co : Fin (n + 2) → Coordinate}
    (hc : ∀ i, (co i).xLeft < (co i).xRight) (grid : Grid p n ℝ) (hb : ∀ i, Built (co i) (grid.cells i).setup)
    (hr : ∀ i, Reached (grid.cells i).setup (grid.cells i).state) {tau : ℝ} (ht : 0 < tau) {radius : ℝ → ℝ}
    (hrad : ∀ u, 0 ≤ radius u) (g : Correction) (i : Fin (n + 2))
    (hl : ∀ b, leftNeighbour grid i = some b → b.value = (grid.cells i).setup.value (grid.cells i).state)
    (hr' : ∀ b, rightNeighbour grid i = some b → b.value = (grid.cells i).setup.value (grid.cells i).state)
    {nu : ℝ} (hn : cellCoeff roots tau radius g grid i = some nu) : nu = 0 := by
  obtain ⟨ml, mr⟩ := neighbours_made hc grid hb i
  refine (coefficient_spec exact (hc i) (hb i) (hr i) ml mr ht hrad hn).2.2.1 ?_ ?_
  · exact fun b e => .inl fun k _ => by rw [hl b e]
  · exact fun b e => .inl fun k _ => by rw [hr' b e]

/-- C118: In a grid of equal elements of degree one to four on points of Gauss, with the correction functions of the
discontinuous Galerkin scheme, the constant of an element exists as soon as the solution in the element is not zero. -/
theorem coefficient_defined_partial (exact : ExactTo (roots 1).apply 3) (hp1 : 1 ≤ p) (hp : p ≤ 4) {co : Fin (n + 2) → Coordinate}
    (hc : ∀ i, (co i).xLeft < (co i).xRight) {δ : ℝ} (hδ : ∀ i, (co i).xRight - (co i).xLeft = δ) (grid : Grid p n ℝ)
    (hb : ∀ i, Built (co i) (grid.cells i).setup) (hr : ∀ i, Reached (grid.cells i).setup (grid.cells i).state)
    {g : Correction} (hg : IsPair (p + 1) g.value g.gradient) (i : Fin (n + 2)) (hf : Fits (grid.cells i).setup g)
    (hk : (grid.cells i).setup.kind = .legendreRoots) (hu : (grid.cells i).state.coeff ≠ 0) (tau : ℝ) (radius : ℝ → ℝ) :
    ∃ nu, cellCoeff roots tau radius g grid i = some nu := by
  obtain ⟨r, _, h1⟩ := rate_negative_partial hp hc hδ grid hb hg i hf _ hu
  obtain ⟨ml, mr⟩ := neighbours_made hc grid hb i
  obtain ⟨e, h2, _⟩ := oscillation_spec exact (hc i) (hb i) hk (hr i) ml mr
  unfold cellCoeff constantCoeff
  rw [hk]
  simp only [h1, h2, Option.bind_some, if_neg (by omega : ¬p = 0)]
  exact ⟨_, rfl⟩

/-- C118: Where the solution is zero in the element, the computation always raises. -/
theorem coefficient_zero_fails (tau : ℝ) (radius : ℝ → ℝ) (m : Matrices p) (s : Setup p) (st : State p ℝ) (hu : st.coeff = 0)
    (left right : Option (Neighbour p ℝ)) : constantCoeff roots tau radius m s st left right = none := by
  unfold constantCoeff
  rw [hu, rate_zero]
  cases s.kind <;> rfl

/-- C118: From degree five on there are other solutions for which it raises. -/
theorem coefficient_high_fails (hp : 5 ≤ p) {co : Fin (n + 2) → Coordinate}
    (hc : ∀ i, (co i).xLeft < (co i).xRight) {δ : ℝ} (hδ : ∀ i, (co i).xRight - (co i).xLeft = δ) (grid : Grid p n ℝ)
    (hb : ∀ i, Built (co i) (grid.cells i).setup) {g : Correction} (hg : IsPair (p + 1) g.value g.gradient) (i : Fin (n + 2))
    (hf : Fits (grid.cells i).setup g) (hper : grid.boundary = none) (tau : ℝ) (radius : ℝ → ℝ) :
    ∃ u : Fin (p + 1) → ℝ, u ≠ 0 ∧ ∀ left right, constantCoeff roots tau radius (matricesOf g grid i) (grid.cells i).setup
      (setCoeff (grid.cells i).setup u) left right = none := by
  obtain ⟨u, h0, h1⟩ := rate_fails hp hc hδ grid hb hg i hf (.inl hper)
  refine ⟨u, h0, fun left right => ?_⟩
  unfold constantCoeff
  rw [show (setCoeff (grid.cells i).setup u).coeff = u from rfl, h1]
  cases (grid.cells i).setup.kind <;> rfl

/-- C118: Degree zero and every other element make it raise as well. -/
theorem coefficient_needs (tau : ℝ) (radius : ℝ → ℝ) (m : Matrices p) (st : State p ℝ) (left right : Option (Neighbour p ℝ))
    {nu : ℝ} (h : constantCoeff roots tau radius m s st left right = some nu) : s.kind = .legendreRoots ∧ p ≠ 0 := by
  obtain ⟨h1, h2, _⟩ := coeff_eq h
  exact ⟨h1, h2⟩

/-- Two elements of length one with the constants one and three: with the wave speed one and the time one the constant of
the first element is one third. -/
example : ∃ (v : PyPoly.Vincent) (grid : Grid 1 0 ℝ), PyPoly.vincent 2 PyPoly.muGalerkin = some v ∧
    (∀ i, Built (pair i) (grid.cells i).setup) ∧ (∀ i, Reached (grid.cells i).setup (grid.cells i).state) ∧
    cellCoeff (fun m => if h : m = 1 then h ▸ gauss2 else ⟨fun _ => 0, fun _ => 0⟩) 1 (fun _ => 1) (.vincent v) grid 0 =
      some (1 / 3) := by
  obtain ⟨v, hv⟩ : ∃ v, PyPoly.vincent 2 PyPoly.muGalerkin = some v := ⟨_, if_pos (by omega)⟩
  choose m hm using fun i => (constructors (pair_pos i) gauss2_exact).2.1
  have bm : ∀ i, Built (pair i) (m i) := fun i => .legendreRoots _ gauss2_exact (hm i)
  have hk : ∀ i, (m i).kind = .legendreRoots := fun i => (lagrange_sane (by simp) (pair_pos i) (hm i)).2.2.1
  have hr : ∀ (i : Fin 2) (a : Fin 2 → ℝ), Reached (m i) (setCoeff (m i) a) := fun i a => .coeff a rfl
  let level : Fin 2 → ℝ := ![1, 3]
  let grid : Grid 1 0 ℝ := ⟨fun i => ⟨m i, setCoeff (m i) fun _ => level i, none⟩, none⟩
  refine ⟨v, grid, hv, bm, fun i => hr i _, ?_⟩
  have hval : ∀ i x, (m i).value (setCoeff (m i) fun _ => level i) x = level i := by
    intro i x
    rw [value_eq (pair_pos i) (bm i) (hr i _)]
    have := interpolate (pair_pos i) (bm i) (by simp [hk]) (C 1) (by simp) x
    simp only [eval_C, one_mul] at this
    simp only [smul_eq_mul, setCoeff]
    rw [← Finset.sum_mul, ← this, one_mul]
  set roots : (m : ℕ) → Rule m := fun m => if h : m = 1 then h ▸ gauss2 else ⟨fun _ => 0, fun _ => 0⟩ with hroots
  have exact : ExactTo (roots 1).apply 3 := gauss2_exact
  have hlow : ∀ σ, low roots ⟨m 1, setCoeff (m 1) fun _ => level 1, σ⟩ = some fun _ => 3 := by
    intro σ
    rw [low_of_line exact (pair_pos 1) _ (bm 1) (α := 3) (β := 0)]
    · congr 1; funext x; exact hval 1 _
    · intro x; rw [zero_mul, add_zero]; exact hval 1 _
  have hself : ∀ σ, (⟨m 1, setCoeff (m 1) fun _ => level 1, σ⟩ : Neighbour 1 ℝ).value = fun _ => (3 : ℝ) := by
    intro σ; funext x; exact hval 1 _
  obtain ⟨h1, h2⟩ := fits_gauss (hk 0) hv
  have hrate : rate (matricesOf (.vincent v) grid 0) (m 0) (fun _ => 1) = some (-6) := by
    have := (rate_spent pair_pos (δ := 1) pair_length grid bm h1 0 h2 (C 1) (by simp) (-6)).2
    simp only [eval_C] at this
    refine this ⟨by norm_num, ?_⟩
    simp [leftOf, rightOf, spent, slopeLeft, slopeRight, grid]
    norm_num
  have hen : oscillationEnergy roots (m 0) (setCoeff (m 0) fun _ => level 0) (leftNeighbour grid 0) (rightNeighbour grid 0) = some 2 := by
    have hL : leftNeighbour grid 0 = some ⟨m 1, setCoeff (m 1) fun _ => level 1, -gridLength grid⟩ := rfl
    have hR : rightNeighbour grid 0 = some ⟨m 1, setCoeff (m 1) fun _ => level 1, 0⟩ := rfl
    have hi := halves_integral (pair_pos 0) (bm 0) (hk 0) (hr 0 fun _ => level 0) (C 3) (by simp)
    simp only [eval_C, hval] at hi
    rw [hL, hR]
    unfold oscillationEnergy halfEnergy
    simp only [hlow, hself, Option.map_some, Option.bind_some, min_self]
    rw [hi]
    norm_num [level, pair, Coordinate.xLeft, Coordinate.xRight]
  have hlen : (m 0).coordinate.length = 1 := by
    rw [((bm 0).sane (pair_pos 0)).2, (pair 0).eq_linear.1, pair_length]
  unfold cellCoeff constantCoeff
  rw [show (grid.cells 0).setup = m 0 from rfl, hk 0, show (grid.cells 0).state = setCoeff (m 0) fun _ => level 0 from rfl]
  simp only [hen, show (setCoeff (m 0) fun _ => level 0).coeff = fun _ => 1 from rfl, hrate, Option.bind_some]
  norm_num [maxNu, hlen, List.finRange]

end MiniCFD.PyViscosity
