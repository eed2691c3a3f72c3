import Verif.Lemmas.EntropyWaves
import Verif.Lemmas.PositiveRim
import Verif.Spec.Entropy
import Mathlib.Analysis.Convex.SpecificFunctions.Basic

/-! Gases of at least a given entropy are those on which certain functionals are positive; faces. -/

namespace MiniCFD.Entropy

open MiniCFD.Euler MiniCFD.Exact MiniCFD.Spec.Exact MiniCFD.Positive MiniCFD.Spec.Euler MiniCFD.Spec.Positive
open MiniCFD.Spec.Entropy MiniCFD.Spec.Gas

variable {d : Nat}

/-- The slope of the tangent to the energy of an isentropic gas. -/
noncomputable def heat (γ s0 ρ0 : ℝ) : ℝ := s0 * γ * ρ0 ^ (γ - 1) / (γ - 1)

/-- The pressure where it touches. -/
noncomputable def base (γ s0 ρ0 : ℝ) : ℝ := s0 * ρ0 ^ γ

/-- The energy above that tangent. -/
theorem tangent {γ s0 ρ0 ρ : ℝ} (hγ : 1 < γ) (hs : 0 ≤ s0) (h0 : 0 < ρ0) (hρ : 0 < ρ) :
    0 ≤ s0 * ρ ^ γ / (γ - 1) - heat γ s0 ρ0 * ρ + base γ s0 ρ0 := by
  have hg : 0 < γ - 1 := by linarith
  have hy : 0 < ρ / ρ0 := div_pos hρ h0
  have b := one_add_mul_self_le_rpow_one_add (s := ρ / ρ0 - 1) (by linarith) hγ.le
  rw [show 1 + (ρ / ρ0 - 1) = ρ / ρ0 by ring, Real.div_rpow hρ.le h0.le] at b
  have hp := Real.rpow_pos_of_pos h0 γ
  have e : s0 * ρ ^ γ / (γ - 1) - heat γ s0 ρ0 * ρ + base γ s0 ρ0 =
      s0 * ρ0 ^ γ / (γ - 1) * (ρ ^ γ / ρ0 ^ γ - (1 + γ * (ρ / ρ0 - 1))) := by
    unfold heat base
    rw [Real.rpow_sub_one h0.ne']
    have := hp.ne'
    have := h0.ne'
    have := hg.ne'
    field_simp
    ring
  rw [e]
  exact mul_nonneg (div_nonneg (mul_nonneg hs hp.le) hg.le) (by linarith)

/-- It is nothing where it touches. -/
theorem tangent_touch {γ s0 ρ : ℝ} (hγ : 1 < γ) (hρ : 0 < ρ) :
    heat γ s0 ρ * ρ - base γ s0 ρ = s0 * ρ ^ γ / (γ - 1) := by
  unfold heat base
  rw [Real.rpow_sub_one hρ.ne']
  have h1 : γ - 1 ≠ 0 := by linarith
  have h2 := hρ.ne'
  field_simp
  ring

theorem test_heat {γ s0 ρ0 K : ℝ} (hγ : 1 < γ) (hs : 0 ≤ s0) (h0 : 0 < ρ0) (hK : 0 ≤ K) (v : ℝ) :
    Test γ s0 v (K - heat γ s0 ρ0) (base γ s0 ρ0) := by
  intro s hg ha
  have hg1 : 0 < γ - 1 := by linarith
  have h1 := tangent hγ hs h0 hg.1
  have h2 : s0 * s.rho ^ γ / (γ - 1) ≤ s.p / (γ - 1) := div_le_div_of_nonneg_right ha hg1.le
  have h3 : 0 ≤ s.rho * ((s.u - v) * (s.u - v) / 2 + K) :=
    mul_nonneg hg.1.le (add_nonneg (div_nonneg (mul_self_nonneg _) two_pos.le) hK)
  simp only [L]
  linarith

/-- The functionals. -/
noncomputable def seen' (γ s0 ρ0 : ℝ) (v : Fin (d + 1) → ℝ) (c : Tup d) : ℝ := ell v c - heat γ s0 ρ0 * c.mass

theorem seen_cons (γ s0 ρ0 : ℝ) (v : Fin (d + 1) → ℝ) (s : Tup d) :
    seen' γ s0 ρ0 v (toCons γ s) = L γ (v 0) (across v s - heat γ s0 ρ0) (P3.of s) := by
  rw [seen', ell_cons]
  simp only [L, toCons, P3.of]
  ring

theorem seen_flux (γ s0 ρ0 : ℝ) (v : Fin (d + 1) → ℝ) (s : Tup d) :
    seen' γ s0 ρ0 v (primFlux γ s) = Q γ (v 0) (across v s - heat γ s0 ρ0) (P3.of s) := by
  rw [seen', ell_flux]
  simp only [Q, L, primFlux, toCons, P3.of, Tup.scale]
  ring

theorem seen_turn {F : Frame d} (h : Orthonormal F) (γ s0 ρ0 : ℝ) (v : Fin (d + 1) → ℝ) (a : Tup d) :
    seen' γ s0 ρ0 v (normalToGlobal F a) = seen' γ s0 ρ0 (fun i => ∑ j, v j * F i j) a := by
  rw [seen', ell_turn h]
  rfl

/-- Which gases are warm. -/
theorem warm_seen {γ s0 : ℝ} (hγ : 1 < γ) (hs : 0 ≤ s0) {c : Tup d} (h : Warm γ s0 c) {ρ0 : ℝ} (h0 : 0 < ρ0)
    (v : Fin (d + 1) → ℝ) : 0 ≤ seen' γ s0 ρ0 v c + base γ s0 ρ0 := by
  obtain ⟨⟨hm, hp⟩, he⟩ := h
  have hg1 : 0 < γ - 1 := by linarith
  have ha : s0 * c.mass ^ γ ≤ pressure γ c := (le_div_iff₀ (Real.rpow_pos_of_pos hm γ)).1 he
  have h1 := tangent hγ hs h0 hm
  have h2 : s0 * c.mass ^ γ / (γ - 1) ≤ pressure γ c / (γ - 1) := div_le_div_of_nonneg_right ha hg1.le
  have h3 : 0 ≤ c.mass * ((∑ i, (vel c i - v i) * (vel c i - v i)) / 2) :=
    mul_nonneg hm.le (div_nonneg (Finset.sum_nonneg fun i _ => mul_self_nonneg _) two_pos.le)
  rw [seen', ell_pressure hγ hm]
  linarith

theorem warm_of_seen {γ s0 : ℝ} (hγ : 1 < γ) {c : Tup d} (hc : Admissible γ c)
    (h : 0 ≤ seen' γ s0 c.mass (vel c) c + base γ s0 c.mass) : Warm γ s0 c := by
  refine ⟨hc, ?_⟩
  have hg1 : 0 < γ - 1 := by linarith
  rw [seen', ell_self γ hγ hc.1.ne'] at h
  have h1 := tangent_touch (s0 := s0) hγ hc.1
  have h2 : s0 * c.mass ^ γ / (γ - 1) ≤ pressure γ c / (γ - 1) := by linarith
  exact (le_div_iff₀ (Real.rpow_pos_of_pos hc.1 γ)).2 ((div_le_div_iff_of_pos_right hg1).1 h2)

theorem above_axes {γ s0 : ℝ} (hγ : 1 < γ) {F : Frame d} {c : Tup d} (h : Warm γ s0 c) :
    Above γ s0 (P3.of (globalToNormal F (toPrim γ c))) := by
  obtain ⟨hc, he⟩ := h
  have ha : s0 * c.mass ^ γ ≤ pressure γ c := (le_div_iff₀ (Real.rpow_pos_of_pos hc.1 γ)).1 he
  rw [toPrim_physical hγ (physical_of_admissible hc)]
  exact ha

/-! ### Faces -/

/-- What is asked of the flux through a face on the side from which the normal comes. -/
def Spares (γ s0 ρ0 α : ℝ) (v nu : Fin (d + 1) → ℝ) (c f : Tup d) : Prop :=
  seen' γ s0 ρ0 v f ≤ α * (seen' γ s0 ρ0 v c + base γ s0 ρ0) + seen' γ s0 ρ0 v (flux γ nu c)

/-- The other side. -/
def Spares' (γ s0 ρ0 α : ℝ) (v nu : Fin (d + 1) → ℝ) (c f : Tup d) : Prop :=
  -seen' γ s0 ρ0 v f ≤ α * (seen' γ s0 ρ0 v c + base γ s0 ρ0) - seen' γ s0 ρ0 v (flux γ nu c)

/-- A gas in the axes of a face. -/
theorem seen_axes {γ : ℝ} (hγ : 1 < γ) {F : Frame d} (h : Orthonormal F) {c : Tup d} (hc : Admissible γ c)
    (s0 ρ0 : ℝ) (v : Fin (d + 1) → ℝ) :
    seen' γ s0 ρ0 v c = L γ (∑ j, v j * F 0 j) (across (fun i => ∑ j, v j * F i j) (globalToNormal F (toPrim γ c)) -
      heat γ s0 ρ0) (P3.of (globalToNormal F (toPrim γ c))) ∧
    seen' γ s0 ρ0 v (flux γ (F 0) c) = Q γ (∑ j, v j * F 0 j)
      (across (fun i => ∑ j, v j * F i j) (globalToNormal F (toPrim γ c)) - heat γ s0 ρ0)
      (P3.of (globalToNormal F (toPrim γ c))) := by
  constructor
  · conv_lhs => rw [← turn_cons hγ h hc, seen_turn h, seen_cons]
  · rw [← turn_flux hγ h hc, seen_turn h, seen_flux]

theorem ideal_face {γ : ℝ} (hγ : 1 < γ) {F : Frame d} (h : Orthonormal F) {l r : Tup d} {s0 : ℝ} (hs : 0 ≤ s0)
    (hl : Warm γ s0 l) (hr : Warm γ s0 r) {p : ℝ} (hp : 0 < p)
    (hf : pressureFn γ (P3.of (globalToNormal F (toPrim γ l))) (P3.of (globalToNormal F (toPrim γ r))) p = 0) {α : ℝ}
    (ha : reach γ p (F 0) l ≤ α) (hb : reach γ p (F 0) r ≤ α) {ρ0 : ℝ} (h0 : 0 < ρ0) (v : Fin (d + 1) → ℝ) :
    Spares γ s0 ρ0 α v (F 0) l (upwind γ (given γ p) F l r) ∧
      Spares' γ s0 ρ0 α v (F 0) r (upwind γ (given γ p) F l r) := by
  have hα := (reach_nonneg _ _ _ _).trans ha
  obtain ⟨l1, l2⟩ := seen_axes hγ h hl.1 s0 ρ0 v
  obtain ⟨r1, r2⟩ := seen_axes hγ h hr.1 s0 ρ0 v
  have al := above_axes hγ (F := F) hl
  have ar := above_axes hγ (F := F) hr
  have fl := front_acoustic hγ (F := F) hl.1 p
  have fr := front_acoustic hγ (F := F) hr.1 p
  have ml := mom_along hγ (F := F) hl.1
  have mr := mom_along hγ (F := F) hr.1
  have gl : Good (P3.of (globalToNormal F (toPrim γ l))) := toPrim_admissible hγ hl.1
  have gr : Good (P3.of (globalToNormal F (toPrim γ r))) := toPrim_admissible hγ hr.1
  unfold Spares Spares'
  rw [l1, l2, r1, r2]
  unfold upwind
  rw [seen_turn h, given, seen_flux, of_setPassive]
  set w := fun i => ∑ j, v j * F i j with hw
  have hw0 : w 0 = ∑ j, v j * F 0 j := rfl
  rw [← hw0]
  generalize globalToNormal F (toPrim γ l) = L' at *
  generalize globalToNormal F (toPrim γ r) = R' at *
  obtain ⟨s1, s2⟩ := starSpeed_root hf
  have hal : front γ p (P3.of L') - (P3.of L').u ≤ α := by
    have : (P3.of L').u = L'.mom 0 := rfl
    rw [fl, this, ml]
    have := neg_abs_le (velAlong (F 0) l)
    unfold reach at ha
    linarith
  have har : front γ p (P3.of R') + (P3.of R').u ≤ α := by
    have : (P3.of R').u = R'.mom 0 := rfl
    rw [fr, this, mr]
    have := le_abs_self (velAlong (F 0) r)
    unfold reach at hb
    linarith
  have wl := wave_left hγ gl hs (test_heat hγ hs h0 (across_nonneg w L') (w 0)) al hp hα hal s1
  have wr := wave_right hγ gr hs (test_heat hγ hs h0 (across_nonneg w R') (w 0)) ar hp hα har s2
  rw [ordinary_eq]
  dsimp only
  by_cases hu : 0 < starSpeed γ (P3.of L') (P3.of R') p
  · rw [if_pos hu, across_left w _ hu]
    exact ⟨wl.taken, by have := wl.left hu.le; linarith [wr.1]⟩
  · rw [if_neg hu, across_right w _ hu]
    have := wr.2.2 (not_lt.1 hu)
    exact ⟨by linarith [wl.near], wr.2.1⟩

/-- Between gases that touch there is a star pressure, below what they do not exceed. -/
theorem root_exists {γ : ℝ} (hγ : 1 < γ) {F : Frame d} {l r : Tup d} (hl : Admissible γ l) (hr : Admissible γ r)
    (ht : velAlong (F 0) r - velAlong (F 0) l < 2 / (γ - 1) * (sound γ l + sound γ r)) :
    ∃ p, 0 < p ∧ p ≤ impact γ (F 0) l r ∧
      pressureFn γ (P3.of (globalToNormal F (toPrim γ l))) (P3.of (globalToNormal F (toPrim γ r))) p = 0 := by
  obtain ⟨gl, ul, cl⟩ := seen_spec hγ (F := F) hl
  obtain ⟨gr, ur, cr⟩ := seen_spec hγ (F := F) hr
  have hneg : pressureFn γ (seen γ F l) (seen γ F r) 0 < 0 := by
    rw [vacuum_criterion hγ gl gr, ul, ur, cl, cr]; exact ht
  obtain ⟨i0, i1⟩ := impact_pressure hγ (F := F) hl hr
  have cont : ContinuousOn (pressureFn γ (seen γ F l) (seen γ F r)) (Set.Icc 0 (impact γ (F 0) l r)) := by
    have h1 := (speedChange_cont hγ gl).mono (Set.Icc_subset_Ici_self (a := impact γ (F 0) l r) (b := 0))
    have h2 := (speedChange_cont hγ gr).mono (Set.Icc_subset_Ici_self (a := impact γ (F 0) l r) (b := 0))
    exact (h1.add h2).add continuousOn_const
  obtain ⟨p, hp, e⟩ := intermediate_value_Icc i0 cont ⟨hneg.le, i1⟩
  refine ⟨p, lt_of_le_of_ne hp.1 fun h => ?_, hp.2, e⟩
  rw [← h] at e
  linarith

theorem root_below {γ : ℝ} (hγ : 1 < γ) {F : Frame d} {l r : Tup d} (hl : Admissible γ l) (hr : Admissible γ r) {p : ℝ}
    (hp : 0 < p) (hf : pressureFn γ (P3.of (globalToNormal F (toPrim γ l))) (P3.of (globalToNormal F (toPrim γ r))) p = 0) :
    p ≤ impact γ (F 0) l r := by
  obtain ⟨i0, i1⟩ := impact_pressure hγ (F := F) hl hr
  by_contra hc
  push Not at hc
  have h1 := pressureFn_strictMono hγ (seen_spec hγ (F := F) hl).1 (seen_spec hγ (F := F) hr).1
    (show impact γ (F 0) l r ∈ Set.Ici (0 : ℝ) from i0) (show p ∈ Set.Ici (0 : ℝ) from hp.le) hc
  have h2 : pressureFn γ (seen γ F l) (seen γ F r) p = 0 := hf
  linarith

theorem reach_mono {γ : ℝ} (hγ : 1 < γ) {c : Tup d} (hc : Admissible γ c) (nu : Fin (d + 1) → ℝ) {p q : ℝ} (h : p ≤ q) :
    reach γ p nu c ≤ reach γ q nu c := by
  have := acoustic_mono hγ hc h
  unfold reach
  linarith

/-- Faces with an ideal solver. -/
theorem face_spares {γ : ℝ} (hγ : 1 < γ) {F : Frame d} (h : Orthonormal F) {l r f : Tup d} {s0 : ℝ} (hs : 0 ≤ s0)
    (hl : Warm γ s0 l) (hr : Warm γ s0 r) (hi : Ideal γ F l r f) {α : ℝ}
    (ha : reach γ (impact γ (F 0) l r) (F 0) l ≤ α) (hb : reach γ (impact γ (F 0) l r) (F 0) r ≤ α)
    {ρ0 : ℝ} (h0 : 0 < ρ0) (v : Fin (d + 1) → ℝ) :
    Spares γ s0 ρ0 α v (F 0) l f ∧ Spares' γ s0 ρ0 α v (F 0) r f := by
  obtain ⟨p, hp, hf, rfl⟩ := hi
  have hle := root_below hγ hl.1 hr.1 hp hf
  exact ideal_face hγ h hs hl hr hp hf ((reach_mono hγ hl.1 _ hle).trans ha) ((reach_mono hγ hr.1 _ hle).trans hb) h0 v

/-- Inlets. -/
theorem inlet_spares {γ : ℝ} (hγ : 1 < γ) {F : Frame d} (h : Orthonormal F) {c b : Tup d} {s0 : ℝ} (hs : 0 ≤ s0)
    (hc : Warm γ s0 c) (hb : Warm γ s0 b)
    (ht : velAlong (F 0) b - velAlong (F 0) c < 2 / (γ - 1) * (sound γ c + sound γ b))
    (hin : velAlong (F 0) b + acoustic γ (impact γ (F 0) c b) b ≤ 0) {α : ℝ}
    (ha : reach γ (impact γ (F 0) c b) (F 0) c ≤ α) {ρ0 : ℝ} (h0 : 0 < ρ0) (v : Fin (d + 1) → ℝ) :
    Spares γ s0 ρ0 α v (F 0) c (supersonicInlet γ F b) := by
  obtain ⟨p, hp, hle, hf⟩ := root_exists hγ (F := F) hc.1 hb.1 ht
  have hα := (reach_nonneg _ _ _ _).trans ha
  have ha' := (reach_mono hγ hc.1 (F 0) hle).trans ha
  have hin' : velAlong (F 0) b + acoustic γ p b ≤ 0 := by have := acoustic_mono hγ hb.1 hle; linarith
  obtain ⟨l1, l2⟩ := seen_axes hγ h hc.1 s0 ρ0 v
  have al := above_axes hγ (F := F) hc
  have ar := above_axes hγ (F := F) hb
  have fl := front_acoustic hγ (F := F) hc.1 p
  have fr := front_acoustic hγ (F := F) hb.1 p
  have ml := mom_along hγ (F := F) hc.1
  have mr := mom_along hγ (F := F) hb.1
  have gl : Good (P3.of (globalToNormal F (toPrim γ c))) := toPrim_admissible hγ hc.1
  have gr : Good (P3.of (globalToNormal F (toPrim γ b))) := toPrim_admissible hγ hb.1
  unfold Spares supersonicInlet fluxOfPrim
  rw [l1, l2, seen_turn h, seen_flux]
  set w := fun i => ∑ j, v j * F i j with hw
  have hw0 : w 0 = ∑ j, v j * F 0 j := rfl
  rw [← hw0]
  generalize globalToNormal F (toPrim γ c) = L' at *
  generalize globalToNormal F (toPrim γ b) = R' at *
  obtain ⟨s1, s2⟩ := starSpeed_root hf
  have hal : front γ p (P3.of L') - (P3.of L').u ≤ α := by
    have : (P3.of L').u = L'.mom 0 := rfl
    rw [fl, this, ml]
    have := neg_abs_le (velAlong (F 0) c)
    unfold reach at ha'
    linarith
  have har : front γ p (P3.of R') + (P3.of R').u ≤ 0 := by
    have : (P3.of R').u = R'.mom 0 := rfl
    rw [fr, this, mr]
    linarith
  have wl := wave_left hγ gl hs (test_heat hγ hs h0 (across_nonneg w L') (w 0)) al hp hα hal s1
  have wr := wave_right hγ gr hs (test_heat hγ hs h0 (across_nonneg w R') (w 0)) ar hp le_rfl har s2
  linarith [wl.near, wr.1]

end MiniCFD.Entropy
