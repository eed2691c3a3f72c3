import Verif.Lemmas.PyExact
import Verif.Props.Exact
import Verif.Props.PyEuler

/-! C90, C91: the exact Riemann solver of the Python code. -/

namespace MiniCFD.PyExact
open MiniCFD.PyEuler MiniCFD.Spec.PyEuler MiniCFD.Spec.PyExact
open MiniCFD.Spec.Exact (c)

variable {γ : ℝ} {l r : Prim} {fuel : Nat} {fsolve : (ℝ → ℝ) → (ℝ → ℝ) → ℝ → Option ℝ}

theorem sound_eq (w : Prim) : sound γ w = c γ (p3 w) := rfl

theorem inv_gap (l r : Prim) : (invLeft γ l).2 ≤ (invRight γ r).2 ↔
    2 / (γ - 1) * (sound γ l + sound γ r) ≤ r.u - l.u := by
  unfold invLeft invRight
  simp only [soundOf_eq, sound_eq]
  have e1 : 2 * c γ (p3 l) / (γ - 1) = 2 / (γ - 1) * c γ (p3 l) := by ring
  have e2 : 2 * c γ (p3 r) / (γ - 1) = 2 / (γ - 1) * c γ (p3 r) := by ring
  rw [e1, e2, mul_add]
  constructor <;> intro h <;> linarith

/-- C90.  The search for a start value ends for all gases that leave no vacuum, at a positive pressure
from which the iteration climbs; `fprime` is the derivative of `func`, and positive; there is at most
one root. -/
theorem guess_ends (hγ : 1 < γ) (hl : Good l) (hr : Good r)
    (hv : r.u - l.u < 2 / (γ - 1) * (sound γ l + sound γ r)) :
    (∃ n p, (∀ m, n ≤ m → guess (func γ l r) m l.p = some p) ∧ 0 < p ∧ func γ l r p ≤ 0) ∧
    (∀ p, 0 < p → HasDerivAt (func γ l r) (funcPrime γ l r p) p ∧ 0 < funcPrime γ l r p) ∧
    (∀ p q, 0 ≤ p → 0 ≤ q → func γ l r p = 0 → func γ l r q = 0 → p = q) := by
  have hl' : Spec.Exact.Good (p3 l) := hl
  have hr' : Spec.Exact.Good (p3 r) := hr
  have hf : func γ l r = Exact.pressureFn γ (p3 l) (p3 r) := funext (func_eq hl hr)
  rw [hf]
  refine ⟨?_, fun p hp => ?_, fun p q hp hq => Exact.root_unique hγ hl' hr' hp hq⟩
  · obtain ⟨n, p, h, -⟩ := Exact.findRoot_total hγ hl' hr' (eps := 1) one_pos (x := l.p) hl.2
      ((Exact.vacuum_criterion hγ hl' hr').2 hv)
    have h := h n le_rfl
    unfold Exact.findRoot at h
    rw [Option.bind_eq_some_iff] at h
    obtain ⟨y, hy, -⟩ := h
    obtain ⟨h1, h2⟩ := Exact.halve_spec hl.2 hy
    exact ⟨n, y, fun m hm => by rw [guess_eq]; exact Exact.halve_more hm hy, h1, h2⟩
  · rw [funcPrime_eq hγ hl hr hp]
    exact Exact.f_prime_is_derivative hγ hl' hr' hp

/-- C90.  With a root of the pressure equation that is either equal to the pressures of the data or
further away from them than the tolerances, the value returned for any point and any later time is
that of the entropy solution. -/
theorem solves_partial (hγ : 1 < γ) (hl : Good l) (hr : Good r)
    (hv : r.u - l.u < 2 / (γ - 1) * (sound γ l + sound γ r)) {p : ℝ}
    (hp : pressure γ fuel fsolve l r = some p) (hp0 : 0 < p) (hroot : func γ l r p = 0)
    (tl : p = l.p ∨ 1 / 10 ^ 10 < |p - l.p|) (tr : p = r.p ∨ 1 / 10 ^ 8 < |p - r.p|) :
    ∃ w u, setInitial γ fuel fsolve (state γ l) (state γ r) = some w ∧
      ∀ x t, 0 < t → ∃ v, Good v ∧
        getValue γ (state γ l) (state γ r) w x t = some (state γ v) ∧
        SolvesAt γ l r u p (x / t) v := by
  have hl' : Spec.Exact.Good (p3 l) := hl
  have hr' : Spec.Exact.Good (p3 r) := hr
  rw [func_eq hl hr] at hroot
  unfold Exact.pressureFn at hroot
  set u := (l.u - f γ p l.p l.rho + r.u + f γ p r.p r.rho) / 2 with hu
  have u1 : u = l.u - Exact.speedChange γ (p3 l) p := by
    rw [hu, f_eq hl, f_eq hr]; dsimp only at hroot; linarith
  have u3 : u = r.u + Exact.speedChange γ (p3 r) p := by
    rw [hu, f_eq hl, f_eq hr]; dsimp only at hroot; linarith
  obtain ⟨rhoL, s1l, s1r, e1, g1, o1, o1', i1, w1⟩ :=
    wave1_spec hγ hl (eps := 1 / 10 ^ 10) (by norm_num) hp0 u1 tl
  obtain ⟨rhoR, s3l, s3r, e3, g3, o3, o3', i3, w3⟩ := wave3_spec hγ hr hp0 u3 tr
  rw [← wave1With_eq] at e1
  have hne : l.p * r.p ≠ 0 := mul_ne_zero hl.2.ne' hr.2.ne'
  refine ⟨⟨l, r, invLeft γ l, invRight γ r, some ⟨p, u, rhoL, rhoR⟩, s1l, s1r, u, s3l, s3r⟩, u, ?_,
    fun x t ht => ?_⟩
  · unfold setInitial
    rw [toPrim_state hγ hl.1 hl.2.le, toPrim_state hγ hr.1 hr.2.le]
    simp only [Option.bind_some]
    unfold structureOf
    simp only
    rw [if_neg hne, if_neg (by rw [inv_gap]; exact not_le.2 hv), hp, Option.bind_some]
    rw [← hu, e1, Option.bind_some, e3]
    rfl
  · generalize hξ : x / t = ξ
    have hsl : Good ⟨rhoL, u, p⟩ := ⟨g1, hp0⟩
    have hsr : Good ⟨rhoR, u, p⟩ := ⟨g3, hp0⟩
    suffices h : ∃ v, Good v ∧ value γ ⟨l, r, invLeft γ l, invRight γ r, some ⟨p, u, rhoL, rhoR⟩, s1l,
        s1r, u, s3l, s3r⟩ ξ = some v ∧ SolvesAt γ l r u p ξ v by
      obtain ⟨v, h1, h2, h3⟩ := h
      refine ⟨v, h1, ?_, h3⟩
      unfold getValue
      rw [if_neg ht.ne', hξ, h2, Option.map_some, toCons_eq]
    have hil : (invLeft γ l).2 = l.u + 2 / (γ - 1) * c γ (p3 l) := by
      unfold invLeft; rw [soundOf_eq]; ring
    have hir : (invRight γ r).2 = r.u - 2 / (γ - 1) * c γ (p3 r) := by
      unfold invRight; rw [soundOf_eq]; ring
    have hk : 0 < (γ - 1) / (γ + 1) := div_pos (by linarith) (by linarith)
    -- some value next to the other wave, to fill the part of the specification not asked for
    have fill1 : ∃ v1, Spec.Exact.Wave1 γ (seen ξ l) (seen ξ ⟨rhoL, u, p⟩) v1 := by
      obtain ⟨s, a1, a2, a3, a4⟩ := Exact.wave1_code (b := seen ξ l) (u := u - ξ) hγ hl hp0 (by
        rw [speedChange_seen, u1]; simp only [seen]; ring)
      by_cases hb : ξ ≤ s1l
      · exact ⟨_, w1 ξ l ⟨fun _ => rfl, fun h => absurd h (by linarith), fun h _ =>
          Or.inl ⟨by linarith, rfl⟩⟩⟩
      · by_cases hb' : s1r ≤ ξ
        · exact ⟨_, w1 ξ ⟨rhoL, u, p⟩ ⟨fun h => absurd h (by linarith), fun _ => rfl, fun _ h =>
            Or.inr (Or.inl ⟨by linarith, rfl⟩)⟩⟩
        · refine ⟨_, w1 ξ _ ⟨fun h => absurd h (by linarith), fun h => absurd h (by linarith),
            fun _ h => Or.inr (Or.inr ⟨by linarith, fan_seen⟩)⟩⟩
    have fill3 : ∃ v3, Spec.Exact.Wave3 γ (seen ξ ⟨rhoR, u, p⟩) (seen ξ r) v3 := by
      by_cases hb : s3r ≤ ξ
      · exact ⟨_, w3 ξ r (fun _ => rfl) (fun h => absurd h (by linarith)) fun _ h =>
          Or.inl ⟨by linarith, rfl⟩⟩
      · by_cases hb' : ξ ≤ s3l
        · exact ⟨_, w3 ξ ⟨rhoR, u, p⟩ (fun h => absurd h (by linarith)) (fun _ => rfl) fun h _ =>
            Or.inr (Or.inl ⟨by linarith, rfl⟩)⟩
        · exact ⟨_, w3 ξ _ (fun h => absurd h (by linarith)) (fun h => absurd h (by linarith))
            fun _ h => Or.inr (Or.inr ⟨by linarith, fan_seen3⟩)⟩
    have left_case : ∀ v, ξ < u → Between1 γ l ⟨rhoL, u, p⟩ s1l s1r ξ v → SolvesAt γ l r u p ξ v := by
      intro v hlt hb
      obtain ⟨v3, h3⟩ := fill3
      exact ⟨seen ξ ⟨rhoL, u, p⟩, seen ξ ⟨rhoR, u, p⟩, hsl, hsr, rfl, rfl, rfl, rfl,
        ⟨_, w1 ξ v hb, fun _ => rfl⟩, ⟨v3, h3, fun h => absurd h (by linarith)⟩⟩
    unfold value
    by_cases hlt : ξ < u
    · rw [if_pos hlt]
      by_cases hb : ξ ≤ s1l
      · rw [if_pos hb]
        exact ⟨l, hl, rfl, left_case l hlt ⟨fun _ => rfl, fun h => absurd h (by linarith), fun h _ =>
          Or.inl ⟨by linarith, rfl⟩⟩⟩
      · rw [if_neg hb]
        by_cases hb' : ξ > s1r
        · rw [if_pos hb']
          exact ⟨_, hsl, rfl, left_case _ hlt ⟨fun h => absurd h (by linarith), fun _ => rfl,
            fun _ h => absurd h (by linarith)⟩⟩
        · rw [if_neg hb']
          have hi := i1 (by linarith)
          dsimp only
          rw [if_pos (mul_nonneg (by rw [hil]; linarith) hk.le)]
          have hg := Exact.insideExpansion_spec hγ (div_pos hl.2 (Real.rpow_pos_of_pos hl.1 γ))
            (show 0 < (invLeft γ l).2 - ξ by rw [hil]; linarith)
          have e := fan_seen (γ := γ) (inv0 := (invLeft γ l).1) (inv1 := (invLeft γ l).2) (ξ := ξ)
          refine ⟨_, ?_, rfl, left_case _ hlt ⟨fun h => absurd h (by linarith),
            fun h => absurd h (by linarith), fun _ _ => Or.inr (Or.inr ⟨by linarith, ?_⟩)⟩⟩
          · have := hg.1
            rw [show l.p / l.rho ^ γ = (invLeft γ l).1 from rfl, ← e] at this
            exact this
          · rw [e, hil]; rfl
    · rw [if_neg hlt]
      have right_case : ∀ v, Spec.Exact.Wave3 γ (seen ξ ⟨rhoR, u, p⟩) (seen ξ r) (seen ξ v) →
          SolvesAt γ l r u p ξ v := by
        intro v h3
        obtain ⟨v1, h1⟩ := fill1
        exact ⟨seen ξ ⟨rhoL, u, p⟩, seen ξ ⟨rhoR, u, p⟩, hsl, hsr, rfl, rfl, rfl, rfl,
          ⟨v1, h1, fun h => absurd h (by linarith)⟩, ⟨_, h3, fun _ => rfl⟩⟩
      by_cases hb : ξ ≥ s3r
      · rw [if_pos hb]
        exact ⟨r, hr, rfl, right_case r (w3 ξ r (fun _ => rfl) (fun h => absurd h (by linarith))
          fun _ h => Or.inl ⟨by linarith, rfl⟩)⟩
      · rw [if_neg hb]
        by_cases hb' : ξ ≤ s3l
        · rw [if_pos hb']
          exact ⟨_, hsr, rfl, right_case _ (w3 ξ ⟨rhoR, u, p⟩ (fun h => absurd h (by linarith))
            (fun _ => rfl) fun h _ => Or.inr (Or.inl ⟨by linarith, rfl⟩))⟩
        · rw [if_neg hb']
          have hi := i3 (by linarith)
          dsimp only
          rw [if_pos (mul_nonneg (by rw [hir]; linarith) hk.le)]
          have hg := Exact.insideExpansion_spec hγ (div_pos hr.2 (Real.rpow_pos_of_pos hr.1 γ))
            (show 0 < -((invRight γ r).2 - ξ) by rw [hir]; linarith)
          have e := fan_seen3 (γ := γ) (inv0 := (invRight γ r).1) (inv1 := (invRight γ r).2) (ξ := ξ)
          refine ⟨_, ?_, rfl, right_case _ (w3 ξ _ (fun h => absurd h (by linarith))
            (fun h => absurd h (by linarith)) fun _ _ => Or.inr (Or.inr ⟨by linarith, ?_⟩))⟩
          · have h2 := hg.1
            rw [Exact.insideExpansion_flip] at h2
            have h3 : Spec.Exact.Good (Exact.insideExpansion γ (invRight γ r).1 ((invRight γ r).2 - ξ)) :=
              h2
            rw [← e] at h3
            exact h3
          · rw [e, hir]; rfl

/-- C90.  The upwind flux is the physical flux of the entropy solution on the axis. -/
theorem flux_on_axis_partial (hγ : 1 < γ) (hl : Good l) (hr : Good r)
    (hv : r.u - l.u < 2 / (γ - 1) * (sound γ l + sound γ r)) {p : ℝ}
    (hp : pressure γ fuel fsolve l r = some p) (hp0 : 0 < p) (hroot : func γ l r p = 0)
    (tl : p = l.p ∨ 1 / 10 ^ 10 < |p - l.p|) (tr : p = r.p ∨ 1 / 10 ^ 8 < |p - r.p|) :
    ∃ u v, SolvesAt γ l r u p 0 v ∧
      upwindFlux γ fuel fsolve (state γ l) (state γ r) = some (physFlux γ v) := by
  obtain ⟨w, u, hw, h⟩ := solves_partial hγ hl hr hv hp hp0 hroot tl tr
  obtain ⟨v, hg, e, hs⟩ := h 0 1 one_pos
  rw [zero_div] at hs
  refine ⟨u, v, hs, ?_⟩
  rw [upwindFlux, hw, Option.bind_some, e, Option.bind_some, flux_state hγ hg.1 hg.2.le]

/-- C90.  At time zero the data are returned. -/
theorem initial (w : Waves) (left right : Vec) (x : ℝ) :
    getValue γ left right w x 0 = some (if x ≤ 0 then left else right) := by
  unfold getValue
  by_cases h : x ≤ 0 <;> simp [h]

/-- C90.  The flux is consistent, without any call of `fsolve`. -/
theorem consistent (hγ : 1 < γ) (hl : Good l) :
    upwindFlux γ fuel fsolve (state γ l) (state γ l) = some (physFlux γ l) := by
  have hf0 : f γ l.p l.p l.rho = 0 := by unfold f; simp
  have hf : func γ l l l.p = 0 := by unfold func; rw [hf0]; ring
  have hp : pressure γ fuel fsolve l l = some l.p := by
    unfold pressure
    have : guess (func γ l l) fuel l.p = some l.p := by
      cases fuel <;> simp [guess, hf]
    rw [this, Option.bind_some, if_neg (by rw [hf]; norm_num)]
  have hs := sound_pos hγ hl
  have hv : ¬ (invLeft γ l).2 ≤ (invRight γ l).2 := by
    rw [inv_gap, sub_self, not_le]
    exact mul_pos (div_pos two_pos (by linarith)) (by linarith)
  have hw : setInitial γ fuel fsolve (state γ l) (state γ l) = some ⟨l, l, invLeft γ l, invRight γ l,
      some ⟨l.p, l.u, l.rho, l.rho⟩, l.u, l.u, l.u, l.u, l.u⟩ := by
    unfold setInitial
    rw [toPrim_state hγ hl.1 hl.2.le]
    simp only [Option.bind_some]
    unfold structureOf
    simp only
    rw [if_neg (mul_ne_zero hl.2.ne' hl.2.ne'), if_neg hv, hp, Option.bind_some]
    rw [hf0]
    have e : (l.u - 0 + l.u + 0) / 2 = l.u := by ring
    rw [e]
    have h1 : wave1 γ l l.u l.p = some (l.rho, l.u, l.u) := by
      unfold wave1; dsimp only; rw [if_neg (by norm_num), if_neg (by norm_num)]
    have h3 : wave3 γ l l.u l.p = some (l.rho, l.u, l.u) := by
      unfold wave3; dsimp only; rw [if_neg (by norm_num), if_neg (by norm_num)]
    rw [h1, h3]
    rfl
  have hval : ∀ ξ, value γ ⟨l, l, invLeft γ l, invRight γ l,
      some ⟨l.p, l.u, l.rho, l.rho⟩, l.u, l.u, l.u, l.u, l.u⟩ ξ = some l := by
    intro ξ
    unfold value
    by_cases h : ξ < l.u
    · simp [h, h.le]
    · simp [h, not_lt.1 h]
  rw [upwindFlux, hw, Option.bind_some, getValue, if_neg one_ne_zero, hval]
  simp only [Option.map_some, Option.bind_some]
  rw [toCons_eq, flux_state hγ hl.1 hl.2.le]

/-- C90, refuted.  The tolerances are absolute: two equal thin gases that meet head on.  The root of
the pressure equation is four times their pressure, yet the wave on the right is taken for weak and
the flux is that of the gas on the right; the solution is symmetric and the gas on the axis at rest. -/
theorem thin_gas :
    let l : Prim := ⟨5 / 10 ^ 10, 3 / 5, 1 / 10 ^ 10⟩
    let r : Prim := ⟨5 / 10 ^ 10, -3 / 5, 1 / 10 ^ 10⟩
    let fsolve : (ℝ → ℝ) → (ℝ → ℝ) → ℝ → Option ℝ := fun _ _ _ => some (4 / 10 ^ 10)
    ∃ g : Vec, func 1.4 l r (4 / 10 ^ 10) = 0 ∧ mirrorState (state 1.4 l) = state 1.4 r ∧
      mirrorState (state 1.4 r) = state 1.4 l ∧
      upwindFlux 1.4 0 fsolve (state 1.4 l) (state 1.4 r) = some g ∧ g ≠ mirrorFlux g ∧
      g = physFlux 1.4 r := by
  intro l r fsolve
  have hl : Good l := by constructor <;> norm_num [l]
  have hr : Good r := by constructor <;> norm_num [r]
  have hfa : f 1.4 (4 / 10 ^ 10) (1 / 10 ^ 10) (5 / 10 ^ 10) = 3 / 5 := by
    unfold f bigP
    rw [if_pos (by norm_num)]
    rw [show (5 / 10 ^ 10 * ((1 / 10 ^ 10 * (1.4 - 1) + 4 / 10 ^ 10 * (1.4 + 1)) / 2) : ℝ) =
      (5 / 10 ^ 10) ^ 2 by norm_num, Real.sqrt_sq (by norm_num)]
    norm_num
  have hf : func 1.4 l r (4 / 10 ^ 10) = 0 := by
    unfold func; simp only [l, r, hfa]; norm_num
  have hf1 : func 1.4 l r (1 / 10 ^ 10) = -6 / 5 := by
    unfold func f; simp only [l, r]; norm_num
  have hp : pressure 1.4 0 fsolve l r = some (4 / 10 ^ 10) := by
    unfold pressure
    have : guess (func 1.4 l r) 0 l.p = some l.p := by
      unfold guess; rw [if_neg]; simp only [l]; rw [hf1]; norm_num
    rw [this, Option.bind_some, if_pos]
    simp only [l]; rw [hf1]; norm_num [abs_of_neg]
  have hsl := sound_pos (γ := 1.4) (by norm_num) hl
  have hsr := sound_pos (γ := 1.4) (by norm_num) hr
  have hv : ¬ (invLeft 1.4 l).2 ≤ (invRight 1.4 r).2 := by
    rw [inv_gap, not_le]
    have h1 : 0 < 2 / ((1.4 : ℝ) - 1) * (sound 1.4 l + sound 1.4 r) :=
      mul_pos (by norm_num) (by linarith)
    have h2 : r.u - l.u < 0 := by norm_num [l, r]
    linarith
  have hw1 : wave1 1.4 l 0 (4 / 10 ^ 10) = some (125 / 10 ^ 11, -(2 / 5), -(2 / 5)) := by
    unfold wave1 shock
    simp only [l]
    norm_num
  have hw3 : wave3 1.4 r 0 (4 / 10 ^ 10) = some (5 / 10 ^ 10, -3 / 5, -3 / 5) := by
    unfold wave3
    simp only [r]
    norm_num
  have hw : setInitial 1.4 0 fsolve (state 1.4 l) (state 1.4 r) = some ⟨l, r, invLeft 1.4 l,
      invRight 1.4 r, some ⟨4 / 10 ^ 10, 0, 125 / 10 ^ 11, 5 / 10 ^ 10⟩, -(2 / 5), -(2 / 5), 0,
      -3 / 5, -3 / 5⟩ := by
    unfold setInitial
    rw [toPrim_state (by norm_num) hl.1 hl.2.le, toPrim_state (by norm_num) hr.1 hr.2.le]
    simp only [Option.bind_some]
    unfold structureOf
    simp only
    rw [if_neg (mul_ne_zero hl.2.ne' hr.2.ne'), if_neg hv, hp, Option.bind_some]
    have hu : (l.u - f 1.4 (4 / 10 ^ 10) l.p l.rho + r.u + f 1.4 (4 / 10 ^ 10) r.p r.rho) / 2 = 0 := by
      simp only [l, r, hfa]; norm_num
    rw [hu, hw1, hw3]
    rfl
  refine ⟨physFlux 1.4 r, hf, ?_, ?_, ?_, ?_, rfl⟩
  · ext i; fin_cases i <;> (norm_num [mirrorState, state, energy, l, r]; try rfl)
  · ext i; fin_cases i <;> (norm_num [mirrorState, state, energy, l, r]; try rfl)
  · rw [upwindFlux, hw, Option.bind_some, getValue, if_neg one_ne_zero]
    have : value 1.4 ⟨l, r, invLeft 1.4 l, invRight 1.4 r, some ⟨4 / 10 ^ 10, 0, 125 / 10 ^ 11,
        5 / 10 ^ 10⟩, -(2 / 5), -(2 / 5), 0, -3 / 5, -3 / 5⟩ (0 / 1) = some r := by
      unfold value
      norm_num
    rw [this]
    simp only [Option.map_some, Option.bind_some]
    rw [toCons_eq, flux_state (by norm_num) hr.1 hr.2.le]
  · intro e
    have := congrFun e 0
    norm_num [physFlux, mirrorFlux, r] at this

/-- C91.  Two gases that recede so fast that a vacuum opens between them: on the rays of the two fans
and outside them the value is that of the solution. -/
theorem vacuum_partial (hγ : 1 < γ) (hl : Good l) (hr : Good r)
    (hv : 2 / (γ - 1) * (sound γ l + sound γ r) ≤ r.u - l.u) :
    ∃ w, setInitial γ fuel fsolve (state γ l) (state γ r) = some w ∧
      (∀ x t, 0 < t → x / t < l.u + 2 / (γ - 1) * sound γ l →
        ∃ v, Good v ∧ getValue γ (state γ l) (state γ r) w x t = some (state γ v) ∧
          VacuumAt1 γ l (x / t) v) ∧
      (∀ x t, 0 < t → r.u - 2 / (γ - 1) * sound γ r < x / t →
        ∃ v, Good v ∧ getValue γ (state γ l) (state γ r) w x t = some (state γ v) ∧
          VacuumAt3 γ r (x / t) v) ∧
      (∀ x t, 0 < t → l.u + 2 / (γ - 1) * sound γ l < x / t →
        x / t ≤ r.u - 2 / (γ - 1) * sound γ r →
        getValue γ (state γ l) (state γ r) w x t = none) := by
  have hil : (invLeft γ l).2 = l.u + 2 / (γ - 1) * sound γ l := by
    unfold invLeft; rw [soundOf_eq, sound_eq]; ring
  have hir : (invRight γ r).2 = r.u - 2 / (γ - 1) * sound γ r := by
    unfold invRight; rw [soundOf_eq, sound_eq]; ring
  have hsl := sound_pos hγ hl
  have hsr := sound_pos hγ hr
  have h2 : 0 < 2 / (γ - 1) := div_pos two_pos (by linarith)
  have pl := mul_pos h2 hsl
  have pr := mul_pos h2 hsr
  have hgap := (inv_gap (γ := γ) l r).2 hv
  have hk : 0 < (γ - 1) / (γ + 1) := div_pos (by linarith) (by linarith)
  have hal : soundOf γ l.p l.rho = sound γ l := soundOf_eq
  have har : soundOf γ r.p r.rho = sound γ r := soundOf_eq
  refine ⟨⟨l, r, invLeft γ l, invRight γ r, none, l.u - soundOf γ l.p l.rho, (invLeft γ l).2,
    ((invLeft γ l).2 + (invRight γ r).2) / 2, (invRight γ r).2, r.u + soundOf γ r.p r.rho⟩, ?_, ?_, ?_,
    ?_⟩
  · unfold setInitial
    rw [toPrim_state hγ hl.1 hl.2.le, toPrim_state hγ hr.1 hr.2.le]
    simp only [Option.bind_some]
    unfold structureOf
    simp only
    rw [if_neg (mul_ne_zero hl.2.ne' hr.2.ne'), if_pos hgap, if_pos]
    rw [hil, hir] at *
    rw [hal, har]
    refine ⟨?_, ?_, ?_, ?_⟩ <;> linarith
  · intro x t ht hx
    rw [getValue, if_neg ht.ne']
    generalize x / t = ξ at hx
    have hlt : ξ < ((invLeft γ l).2 + (invRight γ r).2) / 2 := by rw [← hil] at hx; linarith
    have key : ∀ v, Good v → value γ ⟨l, r, invLeft γ l, invRight γ r, none, l.u - soundOf γ l.p l.rho,
        (invLeft γ l).2, ((invLeft γ l).2 + (invRight γ r).2) / 2, (invRight γ r).2,
        r.u + soundOf γ r.p r.rho⟩ ξ = some v → VacuumAt1 γ l ξ v → ∃ v, Good v ∧
        ((value γ ⟨l, r, invLeft γ l, invRight γ r, none, l.u - soundOf γ l.p l.rho,
        (invLeft γ l).2, ((invLeft γ l).2 + (invRight γ r).2) / 2, (invRight γ r).2,
        r.u + soundOf γ r.p r.rho⟩ ξ).map (toCons γ)) = some (state γ v) ∧ VacuumAt1 γ l ξ v :=
      fun v h1 h2 h3 => ⟨v, h1, by rw [h2, Option.map_some, toCons_eq], h3⟩
    by_cases hb : ξ ≤ l.u - sound γ l
    · refine key l hl (by unfold value; simp only; rw [if_pos hlt, if_pos (by rw [hal]; exact hb)])
        ⟨fun _ => rfl, fun h1 _ => ⟨hl, ⟨rfl, rfl⟩, ?_⟩⟩
      rw [c_seen, ← sound_eq] at h1 ⊢
      simp only [seen] at h1 ⊢
      linarith
    · obtain ⟨g1, g2, g3, g4⟩ := Exact.insideExpansion_spec hγ
        (div_pos hl.2 (Real.rpow_pos_of_pos hl.1 γ))
        (show 0 < (invLeft γ l).2 - ξ by rw [hil]; linarith)
      have e := fan_seen (γ := γ) (inv0 := (invLeft γ l).1) (inv1 := (invLeft γ l).2) (ξ := ξ)
      rw [show l.p / l.rho ^ γ = (invLeft γ l).1 from rfl, ← e] at g1 g2 g3 g4
      refine key _ g1 (by
        unfold value; simp only
        rw [if_pos hlt, if_neg (by rw [hal]; exact hb), if_neg (by rw [hil]; linarith),
          if_pos (mul_nonneg (by rw [hil]; linarith) hk.le)]) ⟨fun h1 => ?_, fun _ _ =>
          ⟨g1, ⟨g2, ?_⟩, g3⟩⟩
      · rw [c_seen, ← sound_eq] at h1
        simp only [seen] at h1
        linarith
      · rw [g4, hil, c_seen, ← sound_eq]
        simp only [seen]; ring
  · intro x t ht hx
    rw [getValue, if_neg ht.ne']
    generalize x / t = ξ at hx
    have hlt : ¬ ξ < ((invLeft γ l).2 + (invRight γ r).2) / 2 := by rw [← hir] at hx; linarith
    have key : ∀ v, Good v → value γ ⟨l, r, invLeft γ l, invRight γ r, none, l.u - soundOf γ l.p l.rho,
        (invLeft γ l).2, ((invLeft γ l).2 + (invRight γ r).2) / 2, (invRight γ r).2,
        r.u + soundOf γ r.p r.rho⟩ ξ = some v → VacuumAt3 γ r ξ v → ∃ v, Good v ∧
        ((value γ ⟨l, r, invLeft γ l, invRight γ r, none, l.u - soundOf γ l.p l.rho,
        (invLeft γ l).2, ((invLeft γ l).2 + (invRight γ r).2) / 2, (invRight γ r).2,
        r.u + soundOf γ r.p r.rho⟩ ξ).map (toCons γ)) = some (state γ v) ∧ VacuumAt3 γ r ξ v :=
      fun v h1 h2 h3 => ⟨v, h1, by rw [h2, Option.map_some, toCons_eq], h3⟩
    by_cases hb : r.u + sound γ r ≤ ξ
    · refine key r hr (by unfold value; simp only; rw [if_neg hlt, if_pos (by rw [har]; exact hb)])
        ⟨fun _ => rfl, fun h1 _ => ⟨hr, ⟨rfl, rfl⟩, ?_⟩⟩
      rw [c_seen, ← sound_eq] at h1 ⊢
      simp only [seen] at h1 ⊢
      linarith
    · obtain ⟨g1, g2, g3, g4⟩ := Exact.insideExpansion_spec hγ
        (div_pos hr.2 (Real.rpow_pos_of_pos hr.1 γ))
        (show 0 < -((invRight γ r).2 - ξ) by rw [hir]; linarith)
      rw [Exact.insideExpansion_flip] at g1 g2 g3 g4
      have e := fan_seen3 (γ := γ) (inv0 := (invRight γ r).1) (inv1 := (invRight γ r).2) (ξ := ξ)
      rw [show r.p / r.rho ^ γ = (invRight γ r).1 from rfl, ← e] at g1 g2 g3 g4
      rw [Exact.c_flip] at g3 g4
      refine key _ g1 (by
        unfold value; simp only
        rw [if_neg hlt, if_neg (by rw [har]; exact hb), if_neg (by rw [hir]; linarith),
          if_pos (mul_nonneg (by rw [hir]; linarith) hk.le)]) ⟨fun h1 => ?_, fun _ _ =>
          ⟨g1, ⟨g2, ?_⟩, ?_⟩⟩
      · rw [c_seen, ← sound_eq] at h1
        simp only [seen] at h1
        linarith
      · have g4' : -(seen ξ (fan γ (invRight γ r).1 ((ξ - (invRight γ r).2) * ((γ - 1) / (γ + 1)))
          (ξ - (ξ - (invRight γ r).2) * ((γ - 1) / (γ + 1))))).u + _ = _ := g4
        rw [c_seen ξ r, ← sound_eq]
        have e3 : (seen ξ r).u = r.u - ξ := rfl
        rw [e3]
        linarith
      · have g3' : -(seen ξ (fan γ (invRight γ r).1 ((ξ - (invRight γ r).2) * ((γ - 1) / (γ + 1)))
          (ξ - (ξ - (invRight γ r).2) * ((γ - 1) / (γ + 1))))).u = _ := g3
        linarith
  · intro x t ht h1 h3
    rw [getValue, if_neg ht.ne']
    generalize x / t = ξ at h1 h3
    unfold value
    simp only
    by_cases hlt : ξ < ((invLeft γ l).2 + (invRight γ r).2) / 2
    · rw [if_pos hlt, if_neg (by rw [hal]; linarith), if_pos (by rw [hil]; exact h1)]
      rfl
    · rw [if_neg hlt, if_neg (by rw [har]; linarith), if_pos (by rw [hir]; exact h3)]
      rfl

/-- C91, refuted: with the vacuum on the axis there is no flux, while that of the vacuum is zero. -/
theorem vacuum_no_flux (hγ : 1 < γ) (hl : Good l) (hr : Good r)
    (h1 : l.u + 2 / (γ - 1) * sound γ l < 0) (h3 : 0 ≤ r.u - 2 / (γ - 1) * sound γ r) :
    upwindFlux γ fuel fsolve (state γ l) (state γ r) = none ∧ flux γ (0 : Vec) = some 0 := by
  obtain ⟨w, hw, -, -, h⟩ := vacuum_partial (fuel := fuel) (fsolve := fsolve) hγ hl hr
    (by rw [mul_add]; linarith)
  have := h 0 1 one_pos (by rw [zero_div]; exact h1) (by rw [zero_div]; exact h3)
  refine ⟨by rw [upwindFlux, hw, Option.bind_some, this, Option.bind_none], ?_⟩
  unfold flux toPrim
  simp only [Pi.zero_apply]
  norm_num
  ext i; fin_cases i <;> rfl

/-- Air of speed of sound one on both sides, receding at speed six. -/
example (fuel : Nat) (fsolve : (ℝ → ℝ) → (ℝ → ℝ) → ℝ → Option ℝ) :
    upwindFlux 1.4 fuel fsolve (state 1.4 ⟨1.4, -6, 1⟩) (state 1.4 ⟨1.4, 6, 1⟩) = none := by
  have e : ∀ u : ℝ, sound 1.4 ⟨1.4, u, 1⟩ = 1 := by intro u; unfold sound; norm_num
  refine (vacuum_no_flux (by norm_num) ⟨by norm_num, by norm_num⟩ ⟨by norm_num, by norm_num⟩ ?_ ?_).1
  · rw [e]; norm_num
  · rw [e]; norm_num

/-- The strong shocks of C55's example meet the hypotheses of `solves_partial`. -/
example : ∃ w u, setInitial (7 / 5) 0 (fun _ _ _ => some 4) (state (7 / 5) ⟨5, 3 / 5, 1⟩)
      (state (7 / 5) ⟨5, -3 / 5, 1⟩) = some w ∧ ∀ x t, 0 < t → ∃ v, Good v ∧
      getValue (7 / 5) (state (7 / 5) ⟨5, 3 / 5, 1⟩) (state (7 / 5) ⟨5, -3 / 5, 1⟩) w x t =
        some (state (7 / 5) v) ∧ SolvesAt (7 / 5) ⟨5, 3 / 5, 1⟩ ⟨5, -3 / 5, 1⟩ u 4 (x / t) v := by
  have hl : Good ⟨5, 3 / 5, 1⟩ := ⟨by norm_num, by norm_num⟩
  have hr : Good ⟨5, -3 / 5, 1⟩ := ⟨by norm_num, by norm_num⟩
  have hfa : f (7 / 5) 4 1 5 = 3 / 5 := by
    unfold f bigP
    rw [if_pos (by norm_num), show (5 * ((1 * (7 / 5 - 1) + 4 * (7 / 5 + 1)) / 2) : ℝ) = 5 ^ 2 by norm_num,
      Real.sqrt_sq (by norm_num)]
    norm_num
  have hf1 : func (7 / 5) ⟨5, 3 / 5, 1⟩ ⟨5, -3 / 5, 1⟩ 1 = -6 / 5 := by
    unfold func f; norm_num
  refine solves_partial (by norm_num) hl hr ?_ (p := 4) ?_ (by norm_num) ?_ ?_ ?_
  · have h1 := sound_pos (γ := 7 / 5) (by norm_num) hl
    have h2 := sound_pos (γ := 7 / 5) (by norm_num) hr
    have h3 : 0 < 2 / ((7 / 5 : ℝ) - 1) * (sound (7 / 5) ⟨5, 3 / 5, 1⟩ + sound (7 / 5) ⟨5, -3 / 5, 1⟩) :=
      mul_pos (by norm_num) (by linarith)
    have h4 : (-3 / 5 : ℝ) - 3 / 5 < 0 := by norm_num
    exact h4.trans h3
  · unfold pressure guess
    rw [if_neg (by rw [hf1]; norm_num), Option.bind_some, if_pos (by rw [hf1]; norm_num [abs_of_neg])]
  · unfold func; simp only [hfa]; norm_num
  · right; norm_num
  · right; norm_num

end MiniCFD.PyExact
