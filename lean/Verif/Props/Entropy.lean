import Verif.Lemmas.EntropyMesh
import Verif.Props.Gas
import Verif.Props.UnitsExact

/-!
# C140: the second law

`p / ρ ^ γ` does not fall below its least value in a run of `dg::General` of degree zero with an exact solver which stops
at the root, if gas slides along walls and no wave gets out against what comes in. The solver of the code stops near the
root, and walls which gas moves towards or away from cool it.
-/

namespace MiniCFD.Entropy

open MiniCFD.Gas MiniCFD.Spec.Gas MiniCFD.Residual MiniCFD.Projection MiniCFD.Ortho MiniCFD.Euler MiniCFD.Spec.Euler
open MiniCFD.Positive MiniCFD.Spec.Positive MiniCFD.Spec.Entropy MiniCFD.RK MiniCFD.Spec.RK

/-! ### One face -/

section

variable {d : Nat} {γ : ℝ}

theorem warm_of_part (hγ : 1 < γ) {s0 β : ℝ} (hs0 : 0 ≤ s0) (hβ : 0 < β) {U W : Tup d} (hU : Warm γ s0 U)
    (key : ∀ s1, 0 ≤ s1 → s1 ≤ s0 → ∀ ρ0, 0 < ρ0 → ∀ v,
      β * (seen' γ s1 ρ0 v U + base γ s1 ρ0) ≤ seen' γ s1 ρ0 v W + base γ s1 ρ0) : Warm γ s0 W := by
  have hZ : Cone (Tup.sub W (Tup.scale β U)) := by
    intro v
    have := key 0 le_rfl hs0 1 one_pos v
    simp only [seen', heat, base, zero_mul, zero_div, sub_zero, add_zero] at this
    rw [ell_sub, ell_scale]
    linarith
  have e : W = Tup.add (Tup.scale β U) (Tup.sub W (Tup.scale β U)) := by
    apply Tup.ext' <;> intros <;> simp [Tup.add, Tup.sub, Tup.scale]
  have hadm : Admissible γ W := by
    rw [e]
    exact admissible_add hγ (admissible_scale hU.1 hβ) hZ
  refine warm_of_seen hγ hadm (le_trans ?_ (key s0 hs0 le_rfl W.mass hadm.1 (vel W)))
  exact mul_nonneg hβ.le (warm_seen hγ hs0 hU hadm.1 _)

/-- **C140.** Across a face where the solver stops at the root, the cells on both sides become no colder than the colder
one of them. What is missing: the solver of the code stops near the root, see `tolerance_cools`. -/
theorem face_entropy_partial (hγ : 1 < γ) {F : Frame d} (h : Orthonormal F) {l r f : Tup d} (hl : Admissible γ l)
    (hr : Admissible γ r) (hi : Ideal γ F l r f) {θ : ℝ} (hθ : 0 ≤ θ)
    (ha : θ * reach γ (impact γ (F 0) l r) (F 0) l < 1) (hb : θ * reach γ (impact γ (F 0) l r) (F 0) r < 1) :
    Warm γ (min (entropy γ l) (entropy γ r)) (holder γ θ (F 0) f l) ∧
      Warm γ (min (entropy γ l) (entropy γ r)) (sharer γ θ (F 0) f r) := by
  set s0 := min (entropy γ l) (entropy γ r) with hs
  have p0 : ∀ {c : Tup d}, Admissible γ c → 0 ≤ entropy γ c :=
    fun hc => div_nonneg hc.2.le (Real.rpow_nonneg hc.1.le _)
  have hs0 : 0 ≤ s0 := le_min (p0 hl) (p0 hr)
  have wl : Warm γ s0 l := ⟨hl, min_le_left _ _⟩
  have wr : Warm γ s0 r := ⟨hr, min_le_right _ _⟩
  set α := max (reach γ (impact γ (F 0) l r) (F 0) l) (reach γ (impact γ (F 0) l r) (F 0) r) with hα
  have hα1 : θ * α < 1 := by
    rcases max_choice (reach γ (impact γ (F 0) l r) (F 0) l) (reach γ (impact γ (F 0) l r) (F 0) r) with e | e <;>
      rw [hα, e] <;> assumption
  have sp := fun s1 (h1 : 0 ≤ s1) (h2 : s1 ≤ s0) ρ0 (h0 : 0 < ρ0) v =>
    face_spares hγ h h1 (warm_mono h2 wl) (warm_mono h2 wr) hi (le_max_left _ _) (le_max_right _ _) h0 v
  constructor
  · refine warm_of_part hγ hs0 (β := 1 - θ * α) (by linarith) wl fun s1 h1 h2 ρ0 h0 v => ?_
    have k := mul_le_mul_of_nonneg_left (sp s1 h1 h2 ρ0 h0 v).1 hθ
    have e : seen' γ s1 ρ0 v (holder γ θ (F 0) f l) =
        seen' γ s1 ρ0 v l + θ * (seen' γ s1 ρ0 v (flux γ (F 0) l) - seen' γ s1 ρ0 v f) := by
      simp only [seen', holder, ell_add, ell_scale, ell_sub]
      simp only [Tup.add, Tup.scale, Tup.sub]
      ring
    rw [e]
    linarith
  · refine warm_of_part hγ hs0 (β := 1 - θ * α) (by linarith) wr fun s1 h1 h2 ρ0 h0 v => ?_
    have k := mul_le_mul_of_nonneg_left (sp s1 h1 h2 ρ0 h0 v).2 hθ
    have e : seen' γ s1 ρ0 v (sharer γ θ (F 0) f r) =
        seen' γ s1 ρ0 v r + θ * (seen' γ s1 ρ0 v f - seen' γ s1 ρ0 v (flux γ (F 0) r)) := by
      simp only [seen', sharer, ell_add, ell_scale, ell_sub]
      simp only [Tup.add, Tup.scale, Tup.sub]
      ring
    rw [e]
    linarith

/-- Between gases that touch there is such an answer. -/
theorem ideal_exists (hγ : 1 < γ) {F : Frame 2} {l r : Tup 2} (hl : Admissible γ l) (hr : Admissible γ r)
    (ht : Touch γ (F 0) l r) : ∃ f, Ideal γ F l r f := by
  obtain ⟨p, hp, -, hf⟩ := root_exists hγ (F := F) hl hr ht
  exact ⟨_, p, hp, hf, rfl⟩

/-- The code's answer is such a one where its iteration stops at the root. -/
theorem ideal_code (hγ : 1 < γ) {F : Frame 2} {l r : Tup 2} (hl : Admissible γ l) (hr : Admissible γ r)
    (ht : Touch γ (F 0) l r) {fuel : Nat} {p : ℝ}
    (hp : Exact.starPressure fuel γ (Exact.P3.of (globalToNormal F (toPrim γ l)))
      (Exact.P3.of (globalToNormal F (toPrim γ r))) = some p) (hp0 : 0 < p)
    (hf : Exact.pressureFn γ (Exact.P3.of (globalToNormal F (toPrim γ l)))
      (Exact.P3.of (globalToNormal F (toPrim γ r))) p = 0) (s : ℝ) {f : Tup 2} {u : ℝ}
    (hc : Exact.rotatedCall fuel γ F s l r = some (f, u)) : Ideal γ F l r f := by
  obtain ⟨gl, ul, cl⟩ := Exact.seen_spec hγ (F := F) hl
  obtain ⟨gr, ur, cr⟩ := Exact.seen_spec hγ (F := F) hr
  have h0 : Exact.pressureFn γ (Exact.seen γ F l) (Exact.seen γ F r) 0 < 0 := by
    rw [Exact.vacuum_criterion hγ gl gr, ul, ur, cl, cr]; exact ht
  have := (Exact.rotatedCall_ordinary gl gr h0 hp s).symm.trans hc
  have e := congrArg Prod.fst (Option.some.inj this)
  exact ⟨p, hp0, hf, e.symm⟩

/-- For instance, two gases beside each other at the same velocity and pressure. -/
example (hγ : 1 < γ) {F : Frame 2} {l r : Tup 2} (hl : Admissible γ l) (hr : Admissible γ r)
    (hu : velAlong (F 0) l = velAlong (F 0) r) (hp : pressure γ l = pressure γ r) (s : ℝ) {f : Tup 2} {u : ℝ}
    (hc : Exact.rotatedCall 9 γ F s l r = some (f, u)) : Ideal γ F l r f := by
  obtain ⟨gl, ul, cl⟩ := Exact.seen_spec hγ (F := F) hl
  obtain ⟨gr, ur, cr⟩ := Exact.seen_spec hγ (F := F) hr
  have hp' : (Exact.seen γ F l).p = (Exact.seen γ F r).p := by
    show (toPrim γ l).energy = (toPrim γ r).energy
    rw [toPrim_physical hγ (physical_of_admissible hl), toPrim_physical hγ (physical_of_admissible hr)]
    exact hp
  obtain ⟨h1, h2⟩ := Exact.contact_root (γ := γ) gl gr (by rw [ul, ur, hu]) hp' 9
  have hs : 0 < sound γ l := Real.sqrt_pos.2 (div_pos (mul_pos (by linarith) hl.2) hl.1)
  have hs' : 0 < sound γ r := Real.sqrt_pos.2 (div_pos (mul_pos (by linarith) hr.2) hr.1)
  refine ideal_code hγ hl hr ?_ h1 gl.2 h2 s hc
  unfold Touch
  rw [hu, sub_self]
  exact mul_pos (div_pos two_pos (by linarith)) (by linarith)

end

/-! ### Runs -/

section

variable {Pt : Type} {m : Mesh Pt 0} {γ : ℝ} {c : Conditions Pt 5} {κ : Fin m.count → ℝ}

theorem warm_convex (hγ : 1 < γ) {s0 : ℝ} (hs0 : 0 ≤ s0) : ConvexSet fun u => ∀ p, Warm γ s0 (hold m κ u p) := by
  intro u w hu hw x x0 x1 p
  rw [hold_lin]
  exact warm_mix hγ hs0 (hu p) (hw p) x0 x1

/-- **C140.** A step of Euler's method. What is missing: see `run_entropy_partial`. -/
theorem euler_entropy_partial [Nonempty Pt] (hγ : 1 < γ) (hr : Regular m c κ) (hs : Supported c) (hi : Ideally m γ)
    {s0 : ℝ} (hs0 : 0 ≤ s0) {t dt : ℝ} (h0 : 0 ≤ dt) {u : Fin m.count → Coeff 5 0} (hu : AllWarm m γ s0 u)
    (hf : Suits m γ s0 c dt t u) : AllWarm m γ s0 (u + dt • m.rates γ c t u) := by
  intro p x
  rw [state_hold hr.constant]
  refine euler_warm γ hγ hr hs hi hs0 h0 (fun p => ?_) hf p
  have := hu p (Classical.arbitrary Pt)
  rwa [state_hold hr.constant] at this

/-- **C140.** A run of any of the methods. What is missing: the solver of the code stops near the root
(`tolerance_cools`), walls cool gas that moves towards or away from them (`wall_cools`), and inlets which are merely
supersonic cool what is behind them (`inlet_cools`). -/
theorem run_entropy_partial [Nonempty Pt] (hγ : 1 < γ) (hr : Regular m c κ) (hs : Supported c) (hi : Ideally m γ)
    {s0 : ℝ} (hs0 : 0 ≤ s0) (k : Stepper) (t : ℝ) {dt : ℝ} (h0 : 0 ≤ dt) (N : ℕ) (clock : ℝ)
    (u : Fin m.count → Coeff 5 0) (hu : AllWarm m γ s0 u)
    (hf : ∀ e ∈ (run k (m.rates γ c) t dt N ⟨clock, u, []⟩).evals, Suits m γ s0 c dt e.1 e.2) :
    AllWarm m γ s0 (run k (m.rates γ c) t dt N ⟨clock, u, []⟩).sol ∧
      ∀ e ∈ (run k (m.rates γ c) t dt N ⟨clock, u, []⟩).evals, AllWarm m γ s0 e.2 := by
  have key := run_convex (warm_convex (m := m) (κ := κ) hγ hs0) k (m.rates γ c) t dt N ⟨clock, u, []⟩
    (fun e hev hS => euler_warm γ hγ hr hs hi hs0 h0 hS (hf e hev))
    (fun p => by
      have := hu p (Classical.arbitrary Pt)
      rwa [state_hold hr.constant] at this)
    (fun e he => absurd he (by simp))
  refine ⟨fun p x => ?_, fun e hev p x => ?_⟩
  · rw [state_hold hr.constant]
    exact key.1 p
  · rw [state_hold hr.constant]
    exact key.2 e hev p

end

/-! ### The hypotheses are met -/

section

variable {γ : ℝ}

/-- A solver which stops at the root, wherever there is one. -/
noncomputable def ideal (γ : ℝ) (F : Frame 2) (l r : Tup 2) : Tup 2 :=
  @Classical.epsilon (Tup 2) ⟨l⟩ fun o => Ideal γ F l r o

theorem tube_ideally (hγ : 1 < γ) : Ideally (tube (ideal γ)) γ := by
  intro g hf q hq l r hl hr ht
  obtain rfl := List.eq_of_mem_singleton hf
  obtain rfl := List.eq_of_mem_singleton hq
  exact Classical.epsilon_spec (p := fun o => Ideal γ _ l r o) (ideal_exists hγ hl hr ht)

/-- For any gases that touch, and any gas coming in fast enough, some step suits. -/
theorem tube_suits {L R G : Tup 2} {s0 : ℝ} (hG : Warm γ s0 G) (hR : R.mom 1 = 0) (ht : Touch γ (east 0) L R)
    (htG : Touch γ (west 0) L G) (hi : velAlong (west 0) G + acoustic γ (impact γ (west 0) L G) G ≤ 0) :
    ∃ dt, 0 < dt ∧ ∀ t, Suits (tube (ideal γ)) γ s0 (flow G) dt t (gases L R) := by
  obtain ⟨A, A0, A1, A2, A3, -, -⟩ := above (reach γ (impact γ (east 0) L R) (east 0) L)
    (reach γ (impact γ (east 0) L R) (east 0) R) (reach γ (impact γ (west 0) L G) (west 0) L) 0 0
  obtain ⟨dt, h0, hC⟩ := tube_courant (f := ideal γ) G A
  have s0 := tube_state (f := ideal γ) L R 0
  have s1 := tube_state (f := ideal γ) L R 1
  simp only [if_true, Fin.one_eq_zero_iff, Nat.succ_ne_self, if_false] at s0 s1
  refine ⟨dt, h0, fun t => ⟨?_, ?_, fun _ => A, ⟨?_, ?_, ?_, ?_, ?_, ?_⟩, hC⟩⟩
  · intro name h faces hb g hf q hq
    obtain rfl := List.eq_of_mem_singleton h
    have hb' : faces = [((1 : Fin 2), [site (ideal γ) (3 / 2) north]), (1, [site (ideal γ) (3 / 2) south])] :=
      (Option.some.inj hb).symm
    subst hb'
    have hf' : g = ((1 : Fin 2), [site (ideal γ) (3 / 2) north]) ∨ g = ((1 : Fin 2), [site (ideal γ) (3 / 2) south]) := by
      rcases List.mem_cons.1 hf with h | h
      · exact .inl h
      · exact .inr (List.eq_of_mem_singleton h)
    rcases hf' with rfl | rfl
    · obtain rfl := List.eq_of_mem_singleton hq
      show velAlong (north 0) (state (tube (ideal γ)) (1 : Fin 2) _ (3 / 2)) = 0
      rw [s1]
      unfold velAlong vel
      rw [three]
      simp [north, hR]
    · obtain rfl := List.eq_of_mem_singleton hq
      show velAlong (south 0) (state (tube (ideal γ)) (1 : Fin 2) _ (3 / 2)) = 0
      rw [s1]
      unfold velAlong vel
      rw [three]
      simp [south, hR]
  · intro nf h faces hb g hf q hq
    obtain rfl := List.eq_of_mem_singleton h
    have hb' : faces = [((0 : Fin 2), [site (ideal γ) 0 west])] := (Option.some.inj hb).symm
    subst hb'
    obtain rfl := List.eq_of_mem_singleton hf
    obtain rfl := List.eq_of_mem_singleton hq
    simp only [tup_val]
    show Warm γ _ G ∧ Touch γ (west 0) (state (tube (ideal γ)) (0 : Fin 2) _ 0) G ∧ velAlong (west 0) G +
      acoustic γ (impact γ (west 0) (state (tube (ideal γ)) (0 : Fin 2) _ 0) G) G ≤ 0
    rw [s0]
    exact ⟨hG, htG, hi⟩
  · intro g hf q hq
    obtain rfl := List.eq_of_mem_singleton hf
    obtain rfl := List.eq_of_mem_singleton hq
    show Touch γ (east 0) (state (tube _) (0 : Fin 2) _ 1) (state (tube _) (1 : Fin 2) _ 1)
    rw [s0, s1]
    exact ht
  · intro g hf q hq
    obtain rfl := List.eq_of_mem_singleton hf
    obtain rfl := List.eq_of_mem_singleton hq
    show reach γ (impact γ (east 0) (state (tube _) (0 : Fin 2) _ 1) (state (tube _) (1 : Fin 2) _ 1)) (east 0)
      (state (tube _) (0 : Fin 2) _ 1) ≤ A
    rw [s0, s1]
    exact A1
  · intro g hf q hq
    obtain rfl := List.eq_of_mem_singleton hf
    obtain rfl := List.eq_of_mem_singleton hq
    show reach γ (impact γ (east 0) (state (tube _) (0 : Fin 2) _ 1) (state (tube _) (1 : Fin 2) _ 1)) (east 0)
      (state (tube _) (1 : Fin 2) _ 1) ≤ A
    rw [s0, s1]
    exact A2
  · intro name h faces hb g hf q hq
    exact A0
  · intro nf h faces hb g hf q hq
    obtain rfl := List.eq_of_mem_singleton h
    have hb' : faces = [((0 : Fin 2), [site (ideal γ) 0 west])] := (Option.some.inj hb).symm
    subst hb'
    obtain rfl := List.eq_of_mem_singleton hf
    obtain rfl := List.eq_of_mem_singleton hq
    simp only [tup_val]
    show reach γ (impact γ (west 0) (state (tube (ideal γ)) (0 : Fin 2) _ 0) G) (west 0)
      (state (tube (ideal γ)) (0 : Fin 2) _ 0) ≤ A
    rw [s0]
    exact A3
  · intro name h faces hb g hf q hq
    exact A0

/-- A stream at Mach number 3.4 which runs into a thin gas at rest. -/
example : ∃ dt, 0 < dt ∧ ∀ t, AllWarm (tube (ideal (7 / 5))) (7 / 5)
    (min (entropy (7 / 5) (⟨1, ![4, 0, 0], 21 / 2⟩ : Tup 2)) (entropy (7 / 5) (⟨1 / 8, 0, 1 / 4⟩ : Tup 2)))
    (run .rk1 ((tube (ideal (7 / 5))).rates (7 / 5) (flow ⟨1, ![4, 0, 0], 21 / 2⟩)) t dt 1
      ⟨t, gases ⟨1, ![4, 0, 0], 21 / 2⟩ ⟨1 / 8, 0, 1 / 4⟩, []⟩).sol := by
  have pG : pressure (7 / 5) (⟨1, ![4, 0, 0], 21 / 2⟩ : Tup 2) = 1 := by
    unfold pressure
    rw [three]
    norm_num [third]
  have pR : pressure (7 / 5) (⟨1 / 8, 0, 1 / 4⟩ : Tup 2) = 1 / 10 := by norm_num [pressure]
  have vw : velAlong (west 0) (⟨1, ![4, 0, 0], 21 / 2⟩ : Tup 2) = -4 := by
    norm_num [velAlong, vel, west, three, third]
  have ve : velAlong (east 0) (⟨1, ![4, 0, 0], 21 / 2⟩ : Tup 2) = 4 := by
    unfold velAlong vel
    rw [three]
    norm_num [east, third, Matrix.one_apply]
  have vR : velAlong (east 0) (⟨1 / 8, 0, 1 / 4⟩ : Tup 2) = 0 := by simp [velAlong, vel]
  have hG : Admissible (7 / 5) (⟨1, ![4, 0, 0], 21 / 2⟩ : Tup 2) := ⟨one_pos, by rw [pG]; exact one_pos⟩
  have hR : Admissible (7 / 5) (⟨1 / 8, 0, 1 / 4⟩ : Tup 2) := ⟨by norm_num, by rw [pR]; norm_num⟩
  have c0 : ∀ a : Tup 2, 0 ≤ sound (7 / 5) a := fun a => Real.sqrt_nonneg _
  have cG : 0 < sound (7 / 5) (⟨1, ![4, 0, 0], 21 / 2⟩ : Tup 2) := Real.sqrt_pos.2 (by rw [pG]; norm_num)
  have k : (0 : ℝ) < 2 / (7 / 5 - 1) := by norm_num
  obtain ⟨dt, h0, hf⟩ := tube_suits (γ := 7 / 5) (L := ⟨1, ![4, 0, 0], 21 / 2⟩) (R := ⟨1 / 8, 0, 1 / 4⟩)
    (G := ⟨1, ![4, 0, 0], 21 / 2⟩) (s0 := min (entropy (7 / 5) (⟨1, ![4, 0, 0], 21 / 2⟩ : Tup 2))
      (entropy (7 / 5) (⟨1 / 8, 0, 1 / 4⟩ : Tup 2))) ⟨hG, min_le_left _ _⟩ rfl
    (by
      unfold Touch
      rw [ve, vR]
      have := mul_nonneg k.le (add_nonneg (c0 ⟨1, ![4, 0, 0], 21 / 2⟩) (c0 ⟨1 / 8, 0, 1 / 4⟩))
      linarith)
    (by
      unfold Touch
      rw [sub_self]
      exact mul_pos k (add_pos cG cG))
    (by
      unfold impact acoustic sound
      rw [vw, pG, if_neg (by norm_num), ← Real.sqrt_mul (by norm_num)]
      have : Real.sqrt (7 / 5 * 1 / 1 * (1 + (7 / 5 + 1) / (2 * (7 / 5)) *
          ((2 * 1 + 2 * 1 + 4 * (7 / 5) * 1 * (-4 - -4) ^ 2) / 1 - 1))) ≤ 4 := by
        rw [Real.sqrt_le_left (by norm_num)]
        norm_num
      linarith)
  have e0 : ∀ {a : Tup 2}, Admissible (7 / 5) a → 0 ≤ entropy (7 / 5) a :=
    fun ha => div_nonneg ha.2.le (Real.rpow_nonneg ha.1.le _)
  refine ⟨dt, h0, fun t => (run_entropy_partial (by norm_num) (tube_regular _) ⟨rfl, rfl, rfl⟩
    (tube_ideally (by norm_num)) (le_min (e0 hG) (e0 hR)) .rk1 t h0.le 1 t _ ?_ ?_).1⟩
  · intro p x
    have := tube_state (f := ideal (7 / 5)) ⟨1, ![4, 0, 0], 21 / 2⟩ ⟨1 / 8, 0, 1 / 4⟩ p x
    rw [show state (tube (ideal (7 / 5))) p (gases ⟨1, ![4, 0, 0], 21 / 2⟩ ⟨1 / 8, 0, 1 / 4⟩ p) x = _ from this]
    split_ifs
    · exact ⟨hG, min_le_left _ _⟩
    · exact ⟨hR, min_le_right _ _⟩
  · intro e he
    obtain rfl := List.eq_of_mem_singleton he
    exact hf _

end
/-! ### Where gas is cooled -/

section

variable {d : Nat} {γ : ℝ}

theorem solidWall_eq (hγ : 1 < γ) {F : Frame d} {a : Tup d} (ha : Admissible γ a) :
    solidWall γ F a = ⟨0, fun j => pressure γ a * F 0 j, 0⟩ := by
  unfold solidWall
  rw [toPrim_physical hγ (physical_of_admissible ha)]
  refine Tup.ext' rfl (fun j => ?_) rfl
  simp [normalToGlobal]

/-- The gas at a wall keeps its velocity, and its density and pressure change like this. -/
theorem wall_holder (hγ : 1 < γ) {F : Frame d} {a : Tup d} (ha : Admissible γ a) {θ : ℝ} (h0 : 1 + θ * velAlong (F 0) a ≠ 0) :
    (holder γ θ (F 0) (solidWall γ F a) a).mass = a.mass * (1 + θ * velAlong (F 0) a) ∧
      pressure γ (holder γ θ (F 0) (solidWall γ F a) a) = pressure γ a * (1 + γ * (θ * velAlong (F 0) a)) := by
  rw [solidWall_eq hγ ha]
  set w := velAlong (F 0) a with hw
  have hm := ha.1.ne'
  have e1 : (holder γ θ (F 0) ⟨0, fun j => pressure γ a * F 0 j, 0⟩ a).mass = a.mass * (1 + θ * w) := by
    simp only [holder, Tup.add, Tup.scale, Tup.sub, flux, ← hw]
    ring
  refine ⟨e1, ?_⟩
  have e2 : ∀ i, (holder γ θ (F 0) ⟨0, fun j => pressure γ a * F 0 j, 0⟩ a).mom i = a.mom i * (1 + θ * w) := by
    intro i
    simp only [holder, Tup.add, Tup.scale, Tup.sub, flux, ← hw, Pi.add_apply, Pi.smul_apply, Pi.sub_apply, smul_eq_mul]
    ring
  have e3 : (holder γ θ (F 0) ⟨0, fun j => pressure γ a * F 0 j, 0⟩ a).energy =
      a.energy * (1 + θ * w) + θ * w * pressure γ a := by
    simp only [holder, Tup.add, Tup.scale, Tup.sub, flux, ← hw]
    ring
  have e4 : ∑ i, (a.mom i * (1 + θ * w)) ^ 2 = (∑ i, a.mom i ^ 2) * (1 + θ * w) ^ 2 := by
    rw [Finset.sum_mul]
    exact Finset.sum_congr rfl fun i _ => by ring
  have e5 : (∑ i, a.mom i ^ 2) * (1 + θ * w) ^ 2 / (2 * (a.mass * (1 + θ * w))) =
      (∑ i, a.mom i ^ 2) / (2 * a.mass) * (1 + θ * w) := by
    field_simp
  have e6 : pressure γ (holder γ θ (F 0) ⟨0, fun j => pressure γ a * F 0 j, 0⟩ a) =
      (γ - 1) * (a.energy * (1 + θ * w) + θ * w * pressure γ a - (∑ i, a.mom i ^ 2) / (2 * a.mass) * (1 + θ * w)) := by
    rw [pressure, e1, e3, ← e5, ← e4]
    simp only [e2]
  rw [e6]
  have e7 : pressure γ a = (γ - 1) * (a.energy - (∑ i, a.mom i ^ 2) / (2 * a.mass)) := rfl
  generalize (∑ i, a.mom i ^ 2) / (2 * a.mass) = K at *
  rw [show (γ - 1) * (a.energy * (1 + θ * w) + θ * w * pressure γ a - K * (1 + θ * w)) =
    (γ - 1) * (a.energy - K) * (1 + θ * w) + (γ - 1) * (θ * w * pressure γ a) by ring, ← e7]
  ring

/-- **C140, the negation.** A cell at a wall becomes colder whenever its gas moves towards the wall or away from it:
`GetFluxOnSolidWall` takes the pressure of the cell for the one at the wall. -/
theorem wall_cools (hγ : 1 < γ) {F : Frame d} {a : Tup d} (ha : Admissible γ a) {θ : ℝ} (h0 : θ ≠ 0)
    (hn : velAlong (F 0) a ≠ 0) (hb : -1 < γ * (θ * velAlong (F 0) a)) :
    Admissible γ (holder γ θ (F 0) (solidWall γ F a) a) ∧
      entropy γ (holder γ θ (F 0) (solidWall γ F a) a) < entropy γ a := by
  set y := θ * velAlong (F 0) a with hy
  have hy0 : y ≠ 0 := mul_ne_zero h0 hn
  have hy1 : 0 < 1 + y := by
    by_contra hc
    push Not at hc
    nlinarith
  obtain ⟨e1, e2⟩ := wall_holder hγ (F := F) ha (θ := θ) hy1.ne'
  rw [← hy] at e1 e2
  refine ⟨⟨by rw [e1]; exact mul_pos ha.1 hy1, by rw [e2]; exact mul_pos ha.2 (by linarith)⟩, ?_⟩
  have b := one_add_mul_self_lt_rpow_one_add (s := y) (by linarith) hy0 hγ
  have hm := Real.rpow_pos_of_pos ha.1 γ
  have hp := Real.rpow_pos_of_pos hy1 γ
  unfold entropy
  rw [e1, e2, Real.mul_rpow ha.1.le hy1.le, div_lt_div_iff₀ (mul_pos hm hp) hm]
  have := mul_lt_mul_of_pos_left b (mul_pos ha.2 hm)
  linarith

/-- Gas that hits a wall at a tenth of the speed of sound. -/
example : entropy (7 / 5) (holder (7 / 5) (1 / 4) (east 0) (solidWall (7 / 5) east ⟨1, ![1 / 10, 0, 0], 1001 / 400⟩)
    (⟨1, ![1 / 10, 0, 0], 1001 / 400⟩ : Tup 2)) < entropy (7 / 5) ⟨1, ![1 / 10, 0, 0], 1001 / 400⟩ := by
  have e : velAlong (east 0) (⟨1, ![1 / 10, 0, 0], 1001 / 400⟩ : Tup 2) = 1 / 10 := by
    unfold velAlong vel
    rw [three]
    norm_num [east, third, Matrix.one_apply]
  refine (wall_cools (by norm_num) ⟨by norm_num, ?_⟩ (by norm_num) ?_ ?_).2
  · unfold pressure
    rw [three]
    norm_num [third]
  · rw [e]
    norm_num
  · rw [e]
    norm_num

/-- **C140, the negation.** An inlet from which gas of higher entropy comes in at supersonic speed cools a cell, although
the step is small enough. -/
theorem inlet_cools : ∃ a b : Tup 2, Admissible (7 / 5) a ∧ Admissible (7 / 5) b ∧ entropy (7 / 5) a ≤ entropy (7 / 5) b ∧
    velAlong (east 0) b ≤ -sound (7 / 5) b ∧
    1 / 4 * reach (7 / 5) (impact (7 / 5) (east 0) a b) (east 0) a < 1 ∧
    entropy (7 / 5) (holder (7 / 5) (1 / 4) (east 0) (supersonicInlet (7 / 5) east b) a) < entropy (7 / 5) a := by
  have pa : pressure (7 / 5) (⟨1, 0, 5 / 2⟩ : Tup 2) = 1 := by norm_num [pressure]
  have pb : pressure (7 / 5) (⟨1 / 80, ![-(3 / 200), 0, 0], 161 / 4000⟩ : Tup 2) = 1 / 80 := by
    unfold pressure
    rw [three]
    norm_num [third]
  have vb : velAlong (east 0) (⟨1 / 80, ![-(3 / 200), 0, 0], 161 / 4000⟩ : Tup 2) = -(6 / 5) := by
    unfold velAlong vel
    rw [three]
    norm_num [east, third, Matrix.one_apply]
  have va : velAlong (east 0) (⟨1, 0, 5 / 2⟩ : Tup 2) = 0 := by simp [velAlong, vel]
  have hb : Admissible (7 / 5) (⟨1 / 80, ![-(3 / 200), 0, 0], 161 / 4000⟩ : Tup 2) :=
    ⟨by norm_num, by rw [pb]; norm_num⟩
  have sa : entropy (7 / 5) (⟨1, 0, 5 / 2⟩ : Tup 2) = 1 := by
    unfold entropy
    rw [pa]
    simp
  refine ⟨⟨1, 0, 5 / 2⟩, ⟨1 / 80, ![-(3 / 200), 0, 0], 161 / 4000⟩, ⟨one_pos, by rw [pa]; exact one_pos⟩, hb, ?_, ?_, ?_, ?_⟩
  · rw [sa]
    unfold entropy
    rw [pb, le_div_iff₀ (Real.rpow_pos_of_pos (by norm_num) _), one_mul]
    exact (Real.rpow_le_rpow_of_exponent_ge (by norm_num) (by norm_num) (by norm_num : (1 : ℝ) ≤ 7 / 5)).trans
      (Real.rpow_one _).le
  · rw [vb]
    unfold sound
    rw [pb, neg_le_neg_iff, Real.sqrt_le_left (by norm_num)]
    norm_num
  · have hi : impact (7 / 5) (east 0) (⟨1, 0, 5 / 2⟩ : Tup 2) ⟨1 / 80, ![-(3 / 200), 0, 0], 161 / 4000⟩ =
        2 + 1 / 40 + 1008 / 125 := by
      unfold impact
      rw [pa, pb, va, vb]
      norm_num
    unfold reach acoustic sound
    rw [hi, pa, va, if_neg (by norm_num), ← Real.sqrt_mul (by norm_num), abs_zero, zero_add]
    have : Real.sqrt (7 / 5 * 1 / 1 * (1 + (7 / 5 + 1) / (2 * (7 / 5)) * ((2 + 1 / 40 + 1008 / 125) / 1 - 1))) < 4 := by
      rw [Real.sqrt_lt' (by norm_num)]
      norm_num
    linarith
  · have hf : supersonicInlet (7 / 5) east (⟨1 / 80, ![-(3 / 200), 0, 0], 161 / 4000⟩ : Tup 2) =
        flux (7 / 5) (east 0) ⟨1 / 80, ![-(3 / 200), 0, 0], 161 / 4000⟩ :=
      fluxOfPrim_physical (by norm_num) orthonormal_all.1 (physical_of_admissible hb)
    rw [hf, sa]
    set W := holder (7 / 5) (1 / 4) (east 0) (flux (7 / 5) (east 0) ⟨1 / 80, ![-(3 / 200), 0, 0], 161 / 4000⟩)
      (⟨1, 0, 5 / 2⟩ : Tup 2) with hW
    have w1 : W.mass = 1 + 3 / 800 := by
      rw [hW]
      simp only [holder, Tup.add, Tup.scale, Tup.sub, flux, va, vb]
      norm_num
    have w2 : W.mom 0 = 1939 / 8000 := by
      rw [hW]
      simp only [holder, Tup.add, Tup.scale, Tup.sub, flux, va, vb, pa, pb, Pi.add_apply, Pi.smul_apply, Pi.sub_apply,
        smul_eq_mul]
      norm_num [east, Matrix.one_apply]
    have w3 : W.mom 1 = 0 := by
      rw [hW]
      simp only [holder, Tup.add, Tup.scale, Tup.sub, flux, va, vb, pa, pb, Pi.add_apply, Pi.smul_apply, Pi.sub_apply,
        smul_eq_mul]
      norm_num [east, Matrix.one_apply]
    have w4 : W.mom 2 = 0 := by
      rw [hW]
      simp only [holder, Tup.add, Tup.scale, Tup.sub, flux, va, vb, pa, pb, Pi.add_apply, Pi.smul_apply, Pi.sub_apply,
        smul_eq_mul]
      norm_num [east, Matrix.one_apply, third]
      rw [if_neg (by decide), if_neg (by decide), sub_zero]
    have w5 : W.energy = 5 / 2 + 633 / 40000 := by
      rw [hW]
      simp only [holder, Tup.add, Tup.scale, Tup.sub, flux, va, vb, pa, pb]
      norm_num
    have w6 : pressure (7 / 5) W < 1 := by
      unfold pressure
      rw [three, w1, w2, w3, w4, w5]
      norm_num
    unfold entropy
    have w7 : 1 ≤ W.mass ^ (7 / 5 : ℝ) := by
      rw [w1]
      exact Real.one_le_rpow (by norm_num) (by norm_num)
    rw [div_lt_one (by linarith)]
    linarith

/-- How far the power is above its tangent. -/
theorem power_above (hγ : 1 < γ) (h2 : γ ≤ 2) {y : ℝ} (hy : 0 ≤ y) :
    1 + γ * y + (γ - 1) ^ 2 * y ^ 2 / (1 + y) ≤ (1 + y) ^ γ := by
  have h1 : 0 < 1 + y := by linarith
  have hs : 1 + -(y / (1 + y)) = (1 + y)⁻¹ := by field_simp; ring
  have b := rpow_one_add_le_one_add_mul_self (s := -(y / (1 + y))) (p := γ - 1)
    (by rw [neg_le_neg_iff, div_le_one h1]; linarith) (by linarith) (by linarith)
  rw [hs, Real.inv_rpow h1.le] at b
  have hq := Real.rpow_pos_of_pos h1 (γ - 1)
  have e : 1 + (γ - 1) * -(y / (1 + y)) = (1 + (2 - γ) * y) / (1 + y) := by field_simp; ring
  rw [e] at b
  have hd : 0 < 1 + (2 - γ) * y := by nlinarith
  have b' : (1 + y) / (1 + (2 - γ) * y) ≤ (1 + y) ^ (γ - 1) := by
    rw [inv_le_comm₀ hq (by positivity), inv_div] at b
    exact b
  have e2 : (1 + y) ^ γ = (1 + y) * (1 + y) ^ (γ - 1) := by
    rw [Real.rpow_sub_one h1.ne']
    field_simp
  rw [e2]
  refine le_trans ?_ (mul_le_mul_of_nonneg_left b' h1.le)
  have e3 : (1 + y) * ((1 + y) / (1 + (2 - γ) * y)) = 1 + γ * y + (γ - 1) ^ 2 * y ^ 2 / (1 + (2 - γ) * y) := by
    have hd' := hd.ne'
    generalize hD : 1 + (2 - γ) * y = D at *
    have e4 : (1 + y) * (1 + y) = (1 + γ * y) * D + (γ - 1) ^ 2 * y ^ 2 := by rw [← hD]; ring
    rw [← mul_div_assoc, e4, add_div, mul_div_cancel_right₀ _ hd']
  rw [e3]
  have : (γ - 1) ^ 2 * y ^ 2 / (1 + y) ≤ (γ - 1) ^ 2 * y ^ 2 / (1 + (2 - γ) * y) := by
    apply div_le_div_of_nonneg_left (by positivity) hd
    nlinarith
  linarith

/-- A gas at rest, and the same one moving against it. -/
noncomputable def still (γ ρ p : ℝ) : Tup d := ⟨ρ, 0, p / (γ - 1)⟩
noncomputable def moving (γ ρ p δ : ℝ) : Tup d := ⟨ρ, fun i => if i = 0 then -(ρ * δ) else 0, p / (γ - 1) + ρ * δ ^ 2 / 2⟩

theorem pressure_still (hγ : 1 < γ) (ρ p : ℝ) : pressure γ (still γ ρ p : Tup d) = p := by
  have : γ - 1 ≠ 0 := by linarith
  simp [pressure, still]
  field_simp

theorem pressure_moving (hγ : 1 < γ) {ρ : ℝ} (hρ : 0 < ρ) (p δ : ℝ) : pressure γ (moving γ ρ p δ : Tup d) = p := by
  have : γ - 1 ≠ 0 := by linarith
  have h := hρ.ne'
  simp [pressure, moving, ite_pow]
  field_simp
  ring

theorem east_still (ρ p : ℝ) : velAlong ((1 : Frame d) 0) (still γ ρ p) = 0 := by simp [velAlong, vel, still]

theorem east_moving {ρ : ℝ} (hρ : 0 < ρ) (p δ : ℝ) : velAlong ((1 : Frame d) 0) (moving γ ρ p δ) = -δ := by
  have h := hρ.ne'
  simp [velAlong, vel, moving, Matrix.one_apply]
  field_simp

/-- **C140, the negation.** The exact solver stops as soon as velocities differ by less than `1e-8`, and then takes the gas
on the right for the one at the face. A gas at rest which meets the same gas at such a speed is cooled, if the step is
not too small: the entropy becomes less than on both sides. -/
theorem tolerance_cools (hγ : 1 < γ) (h2 : γ ≤ 2) {ρ p δ θ : ℝ} (hρ : 0 < ρ) (hp : 0 < p) (hδ : 0 < δ)
    (hs : δ ≤ 1 / 100000000) (hθ : ρ * δ < 2 * (γ - 1) * p * θ) (fuel : Nat) (s : ℝ) :
    ∃ f u, Exact.rotatedCall fuel γ (1 : Frame d) s (still γ ρ p) (moving γ ρ p δ) = some (f, u) ∧
      entropy γ (still γ ρ p : Tup d) = entropy γ (moving γ ρ p δ : Tup d) ∧
      entropy γ (holder γ θ ((1 : Frame d) 0) f (still γ ρ p)) < entropy γ (still γ ρ p : Tup d) := by
  have hl : Admissible γ (still γ ρ p : Tup d) := ⟨hρ, by rw [pressure_still hγ]; exact hp⟩
  have hr : Admissible γ (moving γ ρ p δ : Tup d) := ⟨hρ, by rw [pressure_moving hγ hρ]; exact hp⟩
  have ho : Orthonormal (1 : Frame d) := by simp [Orthonormal]
  have g1 : ∀ x : Tup d, globalToNormal 1 x = x := fun x => by
    refine Tup.ext' rfl (fun i => ?_) rfl
    simp [globalToNormal, Matrix.one_apply]
  have tl : toPrim γ (still γ ρ p : Tup d) = ⟨ρ, 0, p⟩ := by
    rw [toPrim_physical hγ (physical_of_admissible hl), pressure_still hγ]
    refine Tup.ext' rfl (fun i => ?_) rfl
    simp [vel, still]
  have tr : toPrim γ (moving γ ρ p δ : Tup d) = ⟨ρ, fun i => if i = 0 then -δ else 0, p⟩ := by
    rw [toPrim_physical hγ (physical_of_admissible hr), pressure_moving hγ hρ]
    refine Tup.ext' rfl (fun i => ?_) rfl
    have := hρ.ne'
    by_cases hi : i = 0 <;> simp [vel, moving, hi]
    field_simp
  have ax := Units.axis_small hγ hp hρ hδ hs fuel
  have hc : Exact.rotatedCall fuel γ (1 : Frame d) s (still γ ρ p) (moving γ ρ p δ) =
      some (flux γ ((1 : Frame d) 0) (moving γ ρ p δ), -δ / 2) := by
    have hf : flux γ ((1 : Frame d) 0) (moving γ ρ p δ : Tup d) =
        normalToGlobal 1 (primFlux γ (⟨ρ, fun i => if i = 0 then -δ else 0, p⟩ : Tup d)) := by
      rw [← turn_flux hγ ho hr, g1, tr]
    rw [hf]
    unfold Exact.rotatedCall Exact.call
    rw [g1, g1, tl, tr]
    have e1 : Exact.P3.of (⟨ρ, 0, p⟩ : Tup d) = ⟨ρ, 0, p⟩ := rfl
    have e2 : Exact.P3.of (⟨ρ, fun i => if i = 0 then -δ else 0, p⟩ : Tup d) = ⟨ρ, -δ, p⟩ := rfl
    have e3 : Exact.setPassive ⟨ρ, -δ, p⟩ (-δ / 2) (⟨ρ, 0, p⟩ : Tup d) ⟨ρ, fun i => if i = 0 then -δ else 0, p⟩ =
        ⟨ρ, fun i => if i = 0 then -δ else 0, p⟩ := by
      refine Tup.ext' rfl (fun i => ?_) rfl
      by_cases hi : i = 0
      · simp [Exact.setPassive, hi]
      · simp only [Exact.setPassive, hi, if_false]
        rw [if_neg (by linarith)]
    rw [e1, e2, ax]
    simp only [Option.map_some, Option.getD_some, e3]
  refine ⟨_, _, hc, ?_, ?_⟩
  · unfold entropy
    rw [pressure_still hγ, pressure_moving hγ hρ]
    rfl
  · set y := θ * δ with hy
    have hθ0 : 0 < θ := by
      by_contra h
      push Not at h
      have : 2 * (γ - 1) * p * θ ≤ 0 := mul_nonpos_of_nonneg_of_nonpos (mul_nonneg (by linarith) hp.le) h
      have := mul_pos hρ hδ
      linarith
    have hy0 : 0 < y := mul_pos hθ0 hδ
    have hy1 : 0 < 1 + y := by linarith
    have hg : γ - 1 ≠ 0 := by linarith
    set W := holder γ θ ((1 : Frame d) 0) (flux γ ((1 : Frame d) 0) (moving γ ρ p δ)) (still γ ρ p) with hW
    have w1 : W.mass = ρ * (1 + y) := by
      simp only [hW, holder, Tup.add, Tup.scale, Tup.sub, flux, east_still, east_moving hρ, hy]
      simp only [still, moving]
      ring
    have w2 : ∀ i, W.mom i = if i = 0 then -(θ * (ρ * δ ^ 2)) else 0 := by
      intro i
      simp only [hW, holder, Tup.add, Tup.scale, Tup.sub, flux, east_still, east_moving hρ, pressure_still hγ,
        pressure_moving hγ hρ, Pi.add_apply, Pi.smul_apply, Pi.sub_apply, smul_eq_mul]
      by_cases hi : i = 0
      · subst hi
        simp only [still, moving, Matrix.one_apply_eq, if_true, Pi.zero_apply]
        ring
      · simp [still, moving, hi, Matrix.one_apply_ne (Ne.symm hi)]
    have w3 : W.energy = p / (γ - 1) + y * (p / (γ - 1) + ρ * δ ^ 2 / 2 + p) := by
      simp only [hW, holder, Tup.add, Tup.scale, Tup.sub, flux, east_still, east_moving hρ, pressure_still hγ,
        pressure_moving hγ hρ, hy]
      simp only [still, moving]
      ring
    have w4 : pressure γ W = p * (1 + γ * y) + (γ - 1) * (ρ * δ ^ 2) * y / (2 * (1 + y)) := by
      have h := hρ.ne'
      have h' := hy1.ne'
      have e : ∑ i, W.mom i ^ 2 = (y * (ρ * δ)) ^ 2 := by
        simp only [w2]
        simp [ite_pow, hy]
        ring
      unfold pressure
      rw [e, w1, w3]
      field_simp
      ring
    have hm := Real.rpow_pos_of_pos hρ γ
    have hq := Real.rpow_pos_of_pos hy1 γ
    have b := power_above hγ h2 hy0.le
    have key : p * (1 + γ * y) + (γ - 1) * (ρ * δ ^ 2) * y / (2 * (1 + y)) < p * (1 + y) ^ γ := by
      refine lt_of_lt_of_le ?_ (mul_le_mul_of_nonneg_left b hp.le)
      have k1 : (γ - 1) * (ρ * δ ^ 2) * y / (2 * (1 + y)) < p * ((γ - 1) ^ 2 * y ^ 2 / (1 + y)) := by
        rw [← mul_div_assoc, div_lt_div_iff₀ (by linarith) hy1]
        have k2 : (γ - 1) * (ρ * δ ^ 2) * y < p * ((γ - 1) ^ 2 * y ^ 2) * 2 := by
          have k3 := mul_lt_mul_of_pos_left hθ (mul_pos (mul_pos (by linarith : 0 < γ - 1) hδ) hy0)
          have e1 : p * ((γ - 1) ^ 2 * y ^ 2) * 2 = (γ - 1) * δ * y * (2 * (γ - 1) * p * θ) := by
            rw [hy]
            ring
          rw [e1]
          linarith
        have := mul_lt_mul_of_pos_right k2 hy1
        linarith
      linarith
    unfold entropy
    rw [w1, w4, pressure_still hγ, Real.mul_rpow hρ.le hy1.le]
    show _ < p / ρ ^ γ
    rw [div_lt_div_iff₀ (mul_pos hm hq) hm]
    have := mul_lt_mul_of_pos_right key hm
    calc _ < _ := this
      _ = _ := by ring

/-- Air at a step of a quarter. -/
example : ∃ f u, Exact.rotatedCall 9 (7 / 5) (1 : Frame 2) 0 (still (7 / 5) 1 1) (moving (7 / 5) 1 1 (1 / 100000000)) =
      some (f, u) ∧ entropy (7 / 5) (holder (7 / 5) (1 / 4) ((1 : Frame 2) 0) f (still (7 / 5) 1 1)) <
      entropy (7 / 5) (still (7 / 5) 1 1 : Tup 2) := by
  obtain ⟨f, u, h1, -, h3⟩ := tolerance_cools (d := 2) (γ := 7 / 5) (by norm_num) (by norm_num) (ρ := 1) (p := 1)
    (δ := 1 / 100000000) (θ := 1 / 4) one_pos one_pos (by norm_num) le_rfl (by norm_num) 9 0
  exact ⟨f, u, h1, h3⟩

end

end MiniCFD.Entropy
