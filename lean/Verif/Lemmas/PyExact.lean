import Verif.Model.PyExact
import Verif.Spec.PyExact
import Verif.Lemmas.PyEuler
import Verif.Lemmas.ExactWaves
import Mathlib.Tactic.Linarith
import Mathlib.Tactic.FieldSimp
import Mathlib.Tactic.Ring

namespace MiniCFD.PyExact
open MiniCFD.PyEuler MiniCFD.Spec.PyEuler MiniCFD.Spec.PyExact
open MiniCFD.Exact (P3)
open MiniCFD.Spec.Exact (c Wave1 Wave3 Jump SameFan1 SameFan3 mir)

variable {γ : ℝ} {l r : Prim}

abbrev p3 (w : Prim) : P3 := ⟨w.rho, w.u, w.p⟩

theorem seen_good {ξ : ℝ} (h : Good l) : Spec.Exact.Good (seen ξ l) := h

theorem soundOf_eq : soundOf γ l.p l.rho = c γ (p3 l) := by
  unfold soundOf c
  rw [show l.p / l.rho * γ = γ * l.p / l.rho by ring]

theorem c_seen (ξ : ℝ) (w : Prim) : c γ (seen ξ w) = c γ (p3 w) := rfl

theorem speedChange_seen (ξ p : ℝ) (w : Prim) :
    Exact.speedChange γ (seen ξ w) p = Exact.speedChange γ (p3 w) p := rfl

theorem f_eq (h : Good l) (p : ℝ) : f γ p l.p l.rho = Exact.speedChange γ (p3 l) p := by
  have h' : Spec.Exact.Good (p3 l) := h
  rw [Exact.speedChange_eq h']
  unfold f
  rcases lt_trichotomy p l.p with hp | hp | hp
  · rw [if_neg (by linarith), if_pos hp, if_neg (not_le.2 hp), soundOf_eq]
    unfold Exact.psi
    dsimp only
    rw [show (γ - 1) / γ / 2 = (γ - 1) / 2 / γ by ring]
    ring
  · subst hp
    rw [if_neg (lt_irrefl _), if_neg (lt_irrefl _), if_pos le_rfl]
    exact (Exact.phi_at (b := p3 l)).symm
  · rw [if_pos hp, if_pos hp.le]
    unfold Exact.phi bigP Exact.bigP
    dsimp only
    congr 3
    ring

theorem fPrime_eq (hγ : 1 < γ) (h : Good l) {p : ℝ} (hp0 : 0 < p) :
    fPrime γ p l.p l.rho = Exact.speedChangePrime γ (p3 l) p := by
  have h' : Spec.Exact.Good (p3 l) := h
  have h1 := h.1
  have h2 := h.2
  have hrc : √(l.rho * l.p * γ) = l.rho * c γ (p3 l) := by
    unfold c
    rw [show l.rho * l.p * γ = l.rho ^ 2 * (γ * l.p / l.rho) by field_simp]
    rw [Real.sqrt_mul (by positivity), Real.sqrt_sq h1.le]
  rw [Exact.speedChangePrime_eq h']
  unfold fPrime
  rcases lt_trichotomy p l.p with hp | hp | hp
  · rw [if_neg (by linarith), if_pos hp, if_neg (not_le.2 hp), hrc]
    unfold Exact.psi'
    dsimp only
    rw [show -((γ + 1) / 2) / γ = -((γ + 1) / γ / 2) by ring, Real.rpow_neg (by positivity),
      ← Real.inv_rpow (by positivity), inv_div]
    ring
  · subst hp
    rw [if_neg (lt_irrefl _), if_neg (lt_irrefl _), if_pos le_rfl, hrc]
    exact (Exact.phi'_at hγ h').symm
  · rw [if_pos hp, if_pos hp.le]
    have hP : bigP γ l.p p = Exact.bigP γ (p3 l) p := by
      unfold bigP Exact.bigP; dsimp only; ring
    unfold Exact.phi'
    dsimp only
    rw [hP]
    congr 1
    ring

theorem func_eq (hl : Good l) (hr : Good r) (p : ℝ) :
    func γ l r p = Exact.pressureFn γ (p3 l) (p3 r) p := by
  unfold func Exact.pressureFn
  rw [f_eq hl, f_eq hr]

theorem funcPrime_eq (hγ : 1 < γ) (hl : Good l) (hr : Good r) {p : ℝ} (hp : 0 < p) :
    funcPrime γ l r p = Exact.pressureFnPrime γ (p3 l) (p3 r) p := by
  unfold funcPrime Exact.pressureFnPrime
  rw [fPrime_eq hγ hl hp, fPrime_eq hγ hr hp]

theorem guess_eq (g : ℝ → ℝ) (n : Nat) (p : ℝ) : guess g n p = Exact.halve g n p := by
  induction n generalizing p with
  | zero => by_cases h : g p > 0 <;> simp [guess, Exact.halve, h]
  | succ n ih => by_cases h : g p > 0 <;> simp [guess, Exact.halve, h, ih]

/-! ### Fans -/

theorem fan_seen {inv0 inv1 ξ : ℝ} :
    seen ξ (fan γ inv0 ((inv1 - ξ) * ((γ - 1) / (γ + 1)))
      (ξ + (inv1 - ξ) * ((γ - 1) / (γ + 1)))) = Exact.insideExpansion γ inv0 (inv1 - ξ) := by
  unfold fan seen Exact.insideExpansion
  have e : ((inv1 - ξ) * ((γ - 1) / (γ + 1))) ^ 2 / γ / inv0 =
      (γ - 1) / (γ + 1) * (inv1 - ξ) * ((γ - 1) / (γ + 1) * (inv1 - ξ)) / inv0 * (1 / γ) := by ring
  dsimp only
  rw [e]
  congr 1 <;> ring

/-- What the value next to a wave of the first family may be, on a ray `ξ`. -/
def Between1 (γ : ℝ) (l s : Prim) (sl sr ξ : ℝ) (v : Prim) : Prop :=
  (ξ < sl → v = l) ∧ (sr < ξ → v = s) ∧ (sl ≤ ξ → ξ ≤ sr → (ξ = sl ∧ v = l) ∨ (ξ = sr ∧ v = s) ∨
    (sl < sr ∧ seen ξ v = Exact.insideExpansion γ (l.p / l.rho ^ γ)
      (l.u + 2 / (γ - 1) * c γ (p3 l) - ξ)))

open scoped Classical in
/-- The first family with any tolerance. -/
noncomputable def wave1With (γ eps : ℝ) (l : Prim) (u2 p2 : ℝ) : Option (ℝ × ℝ × ℝ) :=
  if p2 > l.p + eps then shock u2 p2 l.u l.p l.rho
  else if p2 < l.p - eps then
    let aL := soundOf γ l.p l.rho
    let a2 := aL + (l.u - u2) / 2 * (γ - 1)
    if 0 < a2 then some (p2 / a2 ^ 2 * γ, l.u - aL, u2 - a2) else none
  else some (l.rho, l.u, l.u)

theorem wave1With_eq (u2 p2 : ℝ) : wave1 γ l u2 p2 = wave1With γ (1 / 10 ^ 10) l u2 p2 := rfl

theorem shock_eq (hγ : 1 < γ) (h : Good l) {p u : ℝ} (hp : l.p < p)
    (hu : u = l.u - Exact.speedChange γ (p3 l) p) :
    shock u p l.u l.p l.rho = some (Exact.rhoShock γ (p3 l) p,
      l.u - Exact.massFlow γ (p3 l) p / l.rho, l.u - Exact.massFlow γ (p3 l) p / l.rho) := by
  have h' : Spec.Exact.Good (p3 l) := h
  have hp0 : 0 < p := h.2.trans hp
  rw [Exact.speedChange_eq h', if_pos hp.le] at hu
  have hu' : u = l.u - (p - l.p) / Exact.massFlow γ (p3 l) p := hu
  have hm := Exact.massFlow_pos hγ h' hp0
  have hne : u ≠ l.u := by
    have : 0 < (p - l.p) / Exact.massFlow γ (p3 l) p := div_pos (by linarith) hm
    intro e; rw [e] at hu'; linarith
  have h1 := h.1
  have hs : l.u + (p - l.p) / (u - l.u) / l.rho = l.u - Exact.massFlow γ (p3 l) p / l.rho := by
    rw [hu']
    have : p - l.p ≠ 0 := by linarith
    rw [show l.u - (p - l.p) / Exact.massFlow γ (p3 l) p - l.u =
      -((p - l.p) / Exact.massFlow γ (p3 l) p) by ring, div_neg, div_div_cancel₀ this]
    ring
  have hafter : u - (l.u - Exact.massFlow γ (p3 l) p / l.rho) =
      Exact.massFlow γ (p3 l) p / Exact.rhoShock γ (p3 l) p := by
    rw [← Exact.speed_after hγ h' hp0, hu']; ring
  have hR := Exact.rhoShock_pos hγ h' hp0
  have hpos := div_pos hm hR
  unfold shock
  rw [if_neg hne]
  dsimp only
  rw [hs, if_neg (by intro e; rw [← e] at hafter; linarith)]
  congr 2
  rw [hafter]
  have e : l.u - (l.u - Exact.massFlow γ (p3 l) p / l.rho) = Exact.massFlow γ (p3 l) p / l.rho := by ring
  rw [e]
  field_simp

/-- The wave of the first family as the code sets it up is the right one, on every ray. -/
theorem wave1_spec (hγ : 1 < γ) (h : Good l) {p u eps : ℝ} (heps : 0 ≤ eps) (hp : 0 < p)
    (hu : u = l.u - Exact.speedChange γ (p3 l) p) (ht : p = l.p ∨ eps < |p - l.p|) :
    ∃ rho sl sr, wave1With γ eps l u p = some (rho, sl, sr) ∧ 0 < rho ∧ sl ≤ sr ∧ sr ≤ u ∧
      (sl < sr → sr < l.u + 2 / (γ - 1) * c γ (p3 l)) ∧
      ∀ ξ v, Between1 γ l ⟨rho, u, p⟩ sl sr ξ v →
        Wave1 γ (seen ξ l) (seen ξ ⟨rho, u, p⟩) (seen ξ v) := by
  have h' : Spec.Exact.Good (p3 l) := h
  rcases lt_trichotomy p l.p with hlt | heq | hlt
  · -- expansion
    have hclear : p < l.p - eps := by
      rcases ht with e | e
      · linarith
      · rw [abs_of_neg (by linarith)] at e; linarith
    have hu0 := hu
    rw [Exact.speedChange_eq h', if_neg (not_le.2 hlt)] at hu
    have ha := Exact.soundFan_pos hγ h' hp
    have hγ1 : γ - 1 ≠ 0 := by linarith
    have hcb := Exact.c_pos hγ h'
    have hx1 : (p / l.p) ^ ((γ - 1) / 2 / γ) < 1 := by
      apply Real.rpow_lt_one (div_pos hp h.2).le ((div_lt_one h.2).2 hlt)
      apply div_pos <;> linarith
    have hal : Exact.soundFan γ (p3 l) p < c γ (p3 l) := by
      unfold Exact.soundFan
      have := mul_lt_mul_of_pos_left hx1 hcb
      linarith
    have hu2 : u - l.u = 2 / (γ - 1) * (c γ (p3 l) - Exact.soundFan γ (p3 l) p) := by
      rw [hu]; unfold Exact.psi Exact.soundFan; ring
    have hafter : c γ (p3 l) + (l.u - u) / 2 * (γ - 1) = Exact.soundFan γ (p3 l) p := by
      have : (l.u - u) / 2 * (γ - 1) =
          -((γ - 1) / 2 * (2 / (γ - 1))) * (c γ (p3 l) - Exact.soundFan γ (p3 l) p) := by
        linear_combination (-(γ - 1) / 2) * hu2
      rw [this, show (γ - 1) / 2 * (2 / (γ - 1)) = 1 by field_simp]
      ring
    have hlu : l.u < u := by
      have : 0 < 2 / (γ - 1) * (c γ (p3 l) - Exact.soundFan γ (p3 l) p) :=
        mul_pos (div_pos two_pos (by linarith)) (by linarith)
      linarith
    have hrho : p / Exact.soundFan γ (p3 l) p ^ 2 * γ =
        γ * p / (Exact.soundFan γ (p3 l) p * Exact.soundFan γ (p3 l) p) := by ring
    have hrpos : 0 < γ * p / (Exact.soundFan γ (p3 l) p * Exact.soundFan γ (p3 l) p) :=
      div_pos (mul_pos (by linarith) hp) (mul_pos ha ha)
    refine ⟨γ * p / (Exact.soundFan γ (p3 l) p * Exact.soundFan γ (p3 l) p), l.u - c γ (p3 l),
      u - Exact.soundFan γ (p3 l) p, ?_, hrpos, by linarith, by linarith, fun _ => ?_, ?_⟩
    · unfold wave1With
      rw [if_neg (by linarith), if_pos hclear]
      simp only [soundOf_eq, hafter]
      rw [if_pos ha, hrho]
    · have e1 : l.u + 2 / (γ - 1) * c γ (p3 l) =
          u + 2 / (γ - 1) * Exact.soundFan γ (p3 l) p := by linear_combination (-1) * hu2
      have : 0 < 2 / (γ - 1) * Exact.soundFan γ (p3 l) p :=
        mul_pos (div_pos two_pos (by linarith)) ha
      rw [e1]; linarith
    · intro ξ v hv
      have hs : c γ (seen ξ ⟨γ * p / (Exact.soundFan γ (p3 l) p * Exact.soundFan γ (p3 l) p), u, p⟩) =
          Exact.soundFan γ (p3 l) p := Exact.sound_of_density (u := u - ξ) hγ ha hp
      have hfan : SameFan1 γ (seen ξ l)
          (seen ξ ⟨γ * p / (Exact.soundFan γ (p3 l) p * Exact.soundFan γ (p3 l) p), u, p⟩) := by
        refine ⟨Exact.entropy_of_density hγ h' hp, ?_⟩
        rw [hs, c_seen]
        simp only [seen]
        linear_combination hu2
      obtain ⟨v1, v2, v3⟩ := hv
      refine Or.inr ⟨hlt, hfan, ?_, ?_, ?_, ?_⟩
      · rw [hs, c_seen]; simp only [seen]; linarith
      · intro h1
        rw [c_seen] at h1
        simp only [seen] at h1
        rw [v1 (by linarith)]
      · intro h1
        rw [hs] at h1
        simp only [seen] at h1
        rw [v2 (by linarith)]
      · intro h1 h2
        rw [c_seen] at h1
        rw [hs] at h2
        simp only [seen] at h1 h2
        rcases v3 (by linarith) (by linarith) with ⟨e, rfl⟩ | ⟨e, rfl⟩ | ⟨-, e⟩
        · refine ⟨⟨rfl, rfl⟩, ?_⟩
          rw [c_seen]; simp only [seen]; linarith
        · refine ⟨hfan, ?_⟩
          rw [hs]; simp only [seen]; linarith
        · have hg2 : 0 < l.u + 2 / (γ - 1) * c γ (p3 l) - ξ := by
            have e1 : l.u + 2 / (γ - 1) * c γ (p3 l) =
                u + 2 / (γ - 1) * Exact.soundFan γ (p3 l) p := by linear_combination (-1) * hu2
            have : 0 < 2 / (γ - 1) * Exact.soundFan γ (p3 l) p :=
              mul_pos (div_pos two_pos (by linarith)) ha
            rw [e1]; linarith
          obtain ⟨-, i1, i2, i3⟩ := Exact.insideExpansion_spec hγ
            (div_pos h.2 (Real.rpow_pos_of_pos h.1 γ)) hg2
          rw [e]
          refine ⟨⟨i1, i3.trans ?_⟩, i2⟩
          rw [c_seen]; simp only [seen]; ring
  · -- no wave
    subst heq
    rw [Exact.speedChange_eq h', if_pos le_rfl, Exact.phi_at (b := p3 l), sub_zero] at hu
    subst hu
    refine ⟨l.rho, l.u, l.u, ?_, h.1, le_rfl, le_rfl, fun e => absurd e (lt_irrefl _), fun ξ v hv => ?_⟩
    · unfold wave1With
      rw [if_neg (by linarith), if_neg (by linarith)]
    · have hvl : v = l := by
        obtain ⟨v1, v2, v3⟩ := hv
        rcases lt_trichotomy ξ l.u with h1 | h1 | h1
        · exact v1 h1
        · rcases v3 h1.ge h1.le with ⟨-, e⟩ | ⟨-, e⟩ | ⟨e, -⟩
          · exact e
          · exact e
          · exact absurd e (lt_irrefl _)
        · exact v2 h1
      subst hvl
      exact Or.inl ⟨le_rfl, _, ⟨by ring, by ring, by ring⟩, le_rfl, le_rfl, fun _ => rfl, fun _ => rfl,
        fun _ => Or.inl rfl⟩
  · -- shock
    have hclear : l.p + eps < p := by
      rcases ht with e | e
      · linarith
      · rw [abs_of_pos (by linarith)] at e; linarith
    have hsh := shock_eq hγ h hlt hu
    have hm := Exact.massFlow_pos hγ h' hp
    have hR := Exact.rhoShock_pos hγ h' hp
    have hsp := Exact.speed_after hγ h' hp
    rw [Exact.speedChange_eq h', if_pos hlt.le] at hu
    have hu' : u = l.u - (p - l.p) / Exact.massFlow γ (p3 l) p := hu
    have hpos := div_pos hm hR
    refine ⟨_, _, _, (if_pos hclear).trans hsh, hR, le_rfl, ?_,
      fun e => absurd e (lt_irrefl _), fun ξ v hv => ?_⟩
    · rw [hu']; dsimp only at hsp; linarith
    · have hS : Spec.Exact.Good (seen ξ l) := h
      have key := Exact.jump_of_mass hγ hS hp hm (Exact.massFlow_sq hγ h' hp)
      have e : (⟨Exact.rhoShock γ (seen ξ l) p, (seen ξ l).u - (p - (seen ξ l).p) /
          Exact.massFlow γ (p3 l) p, p⟩ : P3) = seen ξ ⟨Exact.rhoShock γ (p3 l) p, u, p⟩ := by
        rw [hu']
        simp only [seen, Exact.rhoShock, Exact.bigP]
        congr 1
        ring
      rw [e] at key
      obtain ⟨v1, v2, v3⟩ := hv
      refine Or.inl ⟨hlt.le, (seen ξ l).u - Exact.massFlow γ (p3 l) p / (seen ξ l).rho, key, ?_, ?_, ?_, ?_, ?_⟩
      · have := Exact.lax_before hγ h' hlt.le
        rw [c_seen]
        simp only [seen]
        dsimp only at this
        linarith
      · have h1 := Exact.lax_after hγ h' hlt.le
        have h2 : c γ (seen ξ ⟨Exact.rhoShock γ (p3 l) p, u, p⟩) =
          √(γ * p / Exact.rhoShock γ (p3 l) p) := rfl
        rw [h2]
        simp only [seen]
        dsimp only at hsp
        rw [hu']
        linarith
      · intro hh
        simp only [seen] at hh
        rw [v1 (by linarith)]
      · intro hh
        simp only [seen] at hh
        rw [v2 (by linarith)]
      · intro hh
        simp only [seen] at hh
        rcases v3 (by linarith) (by linarith) with ⟨-, e⟩ | ⟨-, e⟩ | ⟨e, -⟩
        · left; rw [e]
        · right; rw [e]
        · exact absurd e (lt_irrefl _)

/-! ### The other family, by a mirror -/

theorem seen_mirror (ξ : ℝ) (w : Prim) : seen (-ξ) (mirror w) = mir (seen ξ w) := by
  unfold seen mirror mir; congr 1; ring

theorem mirror_mirror (w : Prim) : mirror (mirror w) = w := by
  unfold mirror; simp

theorem shock_mirror (u2 p2 u1 p1 rho1 : ℝ) :
    shock (-u2) p2 (-u1) p1 rho1 =
      (shock u2 p2 u1 p1 rho1).map fun w => (w.1, -w.2.2, -w.2.1) := by
  unfold shock
  have e : -u1 + (p2 - p1) / (-u2 - -u1) / rho1 = -(u1 + (p2 - p1) / (u2 - u1) / rho1) := by
    rw [show -u2 - -u1 = -(u2 - u1) by ring, div_neg, neg_div]; ring
  by_cases h : u2 = u1
  · simp [h]
  · rw [if_neg h, if_neg (by intro h'; exact h (neg_injective h'))]
    dsimp only
    rw [e]
    by_cases h2 : u2 = u1 + (p2 - p1) / (u2 - u1) / rho1
    · rw [if_pos h2, if_pos (by rw [← h2])]; rfl
    · rw [if_neg h2, if_neg (by intro h'; exact h2 (neg_injective h'))]
      simp only [Option.map_some]
      congr 2
      rw [show -u1 - -(u1 + (p2 - p1) / (u2 - u1) / rho1) = -(u1 - (u1 + (p2 - p1) / (u2 - u1) / rho1))
        by ring, show -u2 - -(u1 + (p2 - p1) / (u2 - u1) / rho1) =
        -(u2 - (u1 + (p2 - p1) / (u2 - u1) / rho1)) by ring, mul_neg, neg_div_neg_eq]

theorem wave3_mirror (u2 p2 : ℝ) : wave3 γ r u2 p2 =
    (wave1With γ (1 / 10 ^ 8) (mirror r) (-u2) p2).map fun w => (w.1, -w.2.2, -w.2.1) := by
  unfold wave3 wave1With
  have e0 : (mirror r).p = r.p := rfl
  have e1 : (mirror r).rho = r.rho := rfl
  have e2 : (mirror r).u = -r.u := rfl
  simp only [e0, e1, e2]
  by_cases h : p2 > r.p + 1 / 10 ^ 8
  · rw [if_pos h, if_pos h, shock_mirror, Option.map_map]
    cases shock u2 p2 r.u r.p r.rho <;> simp
  · rw [if_neg h, if_neg h]
    by_cases h2 : p2 < r.p - 1 / 10 ^ 8
    · rw [if_pos h2, if_pos h2]
      have e : soundOf γ r.p r.rho + (-r.u - -u2) / 2 * (γ - 1) =
          soundOf γ r.p r.rho - (r.u - u2) / 2 * (γ - 1) := by ring
      rw [e]
      split
      · simp only [Option.map_some]
        congr 3
        · ring
        · ring
      · rfl
    · rw [if_neg h2, if_neg h2]; simp

/-- The wave of the third family on every ray. -/
theorem wave3_spec (hγ : 1 < γ) (h : Good r) {p u : ℝ} (hp : 0 < p)
    (hu : u = r.u + Exact.speedChange γ (p3 r) p) (ht : p = r.p ∨ 1 / 10 ^ 8 < |p - r.p|) :
    ∃ rho sl sr, wave3 γ r u p = some (rho, sl, sr) ∧ 0 < rho ∧ sl ≤ sr ∧ u ≤ sl ∧
      (sl < sr → r.u - 2 / (γ - 1) * c γ (p3 r) < sl) ∧
      ∀ ξ v, (sr < ξ → v = r) → (ξ < sl → v = ⟨rho, u, p⟩) → (sl ≤ ξ → ξ ≤ sr →
        (ξ = sr ∧ v = r) ∨ (ξ = sl ∧ v = ⟨rho, u, p⟩) ∨
        (sl < sr ∧ seen ξ v = Exact.insideExpansion γ (r.p / r.rho ^ γ)
          (r.u - 2 / (γ - 1) * c γ (p3 r) - ξ))) →
        Wave3 γ (seen ξ ⟨rho, u, p⟩) (seen ξ r) (seen ξ v) := by
  have hm : Good (mirror r) := h
  obtain ⟨rho, sl, sr, e, h1, h2, h3, h5, h4⟩ := wave1_spec hγ hm (eps := 1 / 10 ^ 8) (by norm_num) hp
    (u := -u) (by rw [hu]; simp only [mirror]; rw [neg_add]; rfl) ht
  refine ⟨rho, -sr, -sl, ?_, h1, by linarith, by linarith, fun e => ?_, fun ξ v v1 v2 v3 => ?_⟩
  · rw [wave3_mirror, e]; rfl
  · have := h5 (by linarith)
    simp only [mirror] at this
    have e2 : c γ (p3 ⟨r.rho, -r.u, r.p⟩) = c γ (p3 r) := rfl
    rw [e2] at this
    linarith
  · apply Exact.wave_flip
    have := h4 (-ξ) (mirror v) ⟨fun h => ?_, fun h => ?_, fun ha hb => ?_⟩
    · rw [seen_mirror, seen_mirror] at this
      have e2 : seen (-ξ) ⟨rho, -u, p⟩ = mir (seen ξ ⟨rho, u, p⟩) := seen_mirror ξ ⟨rho, u, p⟩
      rw [e2] at this
      exact this
    · rw [v1 (by linarith)]
    · rw [v2 (by linarith)]; rfl
    · rcases v3 (by linarith) (by linarith) with ⟨e, rfl⟩ | ⟨e, rfl⟩ | ⟨e, e'⟩
      · exact Or.inl ⟨by linarith, rfl⟩
      · exact Or.inr (Or.inl ⟨by linarith, rfl⟩)
      · refine Or.inr (Or.inr ⟨by linarith, ?_⟩)
        rw [seen_mirror, e', ← Exact.insideExpansion_flip]
        congr 1
        simp only [mirror]
        have : c γ (p3 ⟨r.rho, -r.u, r.p⟩) = c γ (p3 r) := rfl
        rw [this]; ring

theorem fan_seen3 {inv0 inv1 ξ : ℝ} :
    seen ξ (fan γ inv0 ((ξ - inv1) * ((γ - 1) / (γ + 1)))
      (ξ - (ξ - inv1) * ((γ - 1) / (γ + 1)))) = Exact.insideExpansion γ inv0 (inv1 - ξ) := by
  have e := fan_seen (γ := γ) (inv0 := inv0) (inv1 := -inv1) (ξ := -ξ)
  rw [show -inv1 - -ξ = -(inv1 - ξ) by ring, Exact.insideExpansion_flip] at e
  have e2 := congrArg mir e
  rw [Exact.flip_flip] at e2
  rw [← e2]
  unfold fan seen mir
  dsimp only
  rw [show ((ξ - inv1) * ((γ - 1) / (γ + 1))) = (-(inv1 - ξ) * ((γ - 1) / (γ + 1))) by ring]
  congr 1
  ring

end MiniCFD.PyExact
