import Verif.Lemmas.EntropyFace
import Verif.Lemmas.Gas

/-! A step of Euler's method at degree zero and the functionals which tell warm gases. -/

namespace MiniCFD.Entropy

open MiniCFD.Gas MiniCFD.Spec.Gas MiniCFD.Residual MiniCFD.Projection MiniCFD.Ortho MiniCFD.Euler MiniCFD.Spec.Euler
open MiniCFD.Positive MiniCFD.Spec.Positive MiniCFD.Spec.Entropy

variable {Pt : Type} (m : Mesh Pt 0) (γ : ℝ) (c : Conditions Pt 5)

/-- What leaves a cell, as told by any functional. -/
noncomputable def leaves (φ : Tup 2 → ℝ) (t : ℝ) (U : Fin m.count → Tup 2) (p : Fin m.count) : ℝ :=
  (m.faces.map fun f =>
    (if f.1 = p then face f.2.2 (fun q => φ (q.solver (U f.1) (U f.2.1))) else 0) -
    (if f.2.1 = p then face f.2.2 (fun q => φ (q.solver (U f.1) (U f.2.1))) else 0)).sum +
  ((c.solidWall.map fun name => rim m name fun h q => if h = p then φ (solidWall γ q.frame (U p)) else 0).sum +
   (c.supersonicInlet.map fun nf => rim m nf.1 fun h q => if h = p then
      φ (supersonicInlet γ q.frame (tup (nf.2 q.coord t))) else 0).sum +
   (c.supersonicOutlet.map fun name => rim m name fun h q => if h = p then
      φ (supersonicOutlet γ q.frame (U p)) else 0).sum)

theorem leaves_ell (v : Fin 3 → ℝ) (t : ℝ) (U : Fin m.count → Tup 2) (p : Fin m.count) :
    out m γ c v t U p = leaves m γ c (ell v) t U p := rfl

theorem rim_ite2 (name : String) (p : Fin m.count) (x y : ℝ) (f g : Site Pt → ℝ) :
    rim m name (fun h q => if h = p then x * f q + y * g q else 0) =
      x * rim m name (fun h q => if h = p then f q else 0) + y * rim m name (fun h q => if h = p then g q else 0) := by
  rw [← rim_lin2]
  congr 1
  funext h q
  by_cases hp : h = p <;> simp [hp]

theorem leaves_lin2 (x y : ℝ) (φ ψ : Tup 2 → ℝ) (t : ℝ) (U : Fin m.count → Tup 2) (p : Fin m.count) :
    leaves m γ c (fun a => x * φ a + y * ψ a) t U p = x * leaves m γ c φ t U p + y * leaves m γ c ψ t U p := by
  have h2 : ∀ f' : Fin m.count × Fin m.count × List (Site Pt),
      ((if f'.1 = p then face f'.2.2 (fun q => x * φ (q.solver (U f'.1) (U f'.2.1)) + y * ψ (q.solver (U f'.1) (U f'.2.1))) else 0) -
        (if f'.2.1 = p then face f'.2.2 (fun q => x * φ (q.solver (U f'.1) (U f'.2.1)) + y * ψ (q.solver (U f'.1) (U f'.2.1))) else 0)) =
      x * ((if f'.1 = p then face f'.2.2 (fun q => φ (q.solver (U f'.1) (U f'.2.1))) else 0) -
        (if f'.2.1 = p then face f'.2.2 (fun q => φ (q.solver (U f'.1) (U f'.2.1))) else 0)) +
      y * ((if f'.1 = p then face f'.2.2 (fun q => ψ (q.solver (U f'.1) (U f'.2.1))) else 0) -
        (if f'.2.1 = p then face f'.2.2 (fun q => ψ (q.solver (U f'.1) (U f'.2.1))) else 0)) := by
    intro f'
    rw [face_lin2]
    by_cases a : f'.1 = p <;> by_cases b : f'.2.1 = p <;> simp [a, b] <;> ring
  simp only [leaves, h2, rim_ite2, Energy.list_lin2]
  ring

/-- Observers who move with one along the first axis. -/
def ahead : Fin 3 → ℝ := ![1, 0, 0]
def back : Fin 3 → ℝ := ![-1, 0, 0]

/-- Mass, told by three observers. -/
theorem mass_ell (a : Tup 2) : a.mass = ell ahead a + ell back a - 2 * ell 0 a := by
  have h : ∀ g : Fin (2 + 1) → ℝ, ∑ i, g i = g 0 + g 1 + g 2 := fun g => Fin.sum_univ_three g
  simp [ell, ahead, back, h]
  ring

theorem seen_ell (s0 ρ0 : ℝ) (v : Fin 3 → ℝ) :
    (seen' γ s0 ρ0 v : Tup 2 → ℝ) = fun a => 1 * ell v a + -heat γ s0 ρ0 *
      (1 * (1 * ell ahead a + 1 * ell back a) + -2 * ell 0 a) := by
  funext a
  rw [seen', mass_ell]
  ring

variable {m c}

/-- A step of Euler's method. -/
theorem euler_seen {κ : Fin m.count → ℝ} (hr : Regular m c κ) (hs : Supported c) (t dt : ℝ) (u : Fin m.count → Coeff 5 0)
    (p : Fin m.count) (s0 ρ0 : ℝ) (v : Fin 3 → ℝ) :
    seen' γ s0 ρ0 v (hold m κ (u + dt • m.rates γ c t u) p) =
      seen' γ s0 ρ0 v (hold m κ u p) - dt * (κ p * κ p) * leaves m γ c (seen' γ s0 ρ0 v) t (hold m κ u) p := by
  rw [seen_ell]
  rw [leaves_lin2 m γ c 1 (-heat γ s0 ρ0) (ell v) (fun a => 1 * (1 * ell ahead a + 1 * ell back a) + -2 * ell 0 a),
    leaves_lin2 m γ c 1 (-2) (fun a => 1 * ell ahead a + 1 * ell back a) (ell 0),
    leaves_lin2 m γ c 1 1 (ell ahead) (ell back)]
  simp only [← leaves_ell]
  rw [euler_obs γ hr hs, euler_obs γ hr hs, euler_obs γ hr hs, euler_obs γ hr hs]
  ring

/-- The flux of one state through a closed surface. -/
theorem surface_seen {κ : Fin m.count → ℝ} (hr : Regular m c κ) (p : Fin m.count) (s0 ρ0 : ℝ) (v : Fin 3 → ℝ)
    (U : Tup 2) : surface m c p (fun q => seen' γ s0 ρ0 v (flux γ (q.frame 0) U)) = 0 := by
  rw [seen_ell]
  rw [surface_lin2 p 1 (-heat γ s0 ρ0) (fun q => ell v (flux γ (q.frame 0) U))
    (fun q => 1 * (1 * ell ahead (flux γ (q.frame 0) U) + 1 * ell back (flux γ (q.frame 0) U)) +
      -2 * ell 0 (flux γ (q.frame 0) U)),
    surface_lin2 p 1 (-2) (fun q => 1 * ell ahead (flux γ (q.frame 0) U) + 1 * ell back (flux γ (q.frame 0) U))
      (fun q => ell 0 (flux γ (q.frame 0) U)),
    surface_lin2 p 1 1 (fun q => ell ahead (flux γ (q.frame 0) U)) (fun q => ell back (flux γ (q.frame 0) U)),
    surface_flux γ hr, surface_flux γ hr, surface_flux γ hr, surface_flux γ hr]
  ring

/-- A wall along which the gas slides. -/
theorem wall_flux {d : Nat} {γ : ℝ} (hγ : 1 < γ) {F : Frame d} (h : Orthonormal F) {a : Tup d} (ha : Admissible γ a)
    (h0 : velAlong (F 0) a = 0) : solidWall γ F a = flux γ (F 0) a := by
  rw [← turn_flux hγ h ha]
  have hm := mom_along hγ (F := F) ha
  rw [h0] at hm
  unfold solidWall
  dsimp only
  congr 1
  have he : (toPrim γ a).energy = (globalToNormal F (toPrim γ a)).energy := rfl
  rw [he]
  generalize globalToNormal F (toPrim γ a) = s at *
  refine Tup.ext' ?_ (fun i => ?_) ?_
  · simp [primFlux, toCons, Tup.scale, hm]
  · by_cases hi : i = 0 <;> simp [primFlux, toCons, Tup.scale, hm, hi]
  · simp [primFlux, toCons, Tup.scale, hm]

/-- A cell does not lose more than it can. -/
theorem leaves_le {κ : Fin m.count → ℝ} (hγ : 1 < γ) (hr : Regular m c κ) {s0 : ℝ} (hs0 : 0 ≤ s0) {t : ℝ}
    {u : Fin m.count → Coeff 5 0} (hu : ∀ p, Warm γ s0 (hold m κ u p)) (hi : Ideally m γ) {α : Site Pt → ℝ}
    (hw : Slides m c u) (hin : Streams m γ s0 c t u) (hb : Spans m γ c t u α) (p : Fin m.count)
    {ρ0 : ℝ} (h0 : 0 < ρ0) (v : Fin 3 → ℝ) :
    leaves m γ c (seen' γ s0 ρ0 v) t (hold m κ u) p ≤
      (seen' γ s0 ρ0 v (hold m κ u p) + base γ s0 ρ0) * around m c p α := by
  obtain ⟨b1, b2, b3, b4, b5, b6⟩ := hb
  simp only [Slides, Streams, state_hold hr.constant] at b1 b2 b3 b5 hw hin
  set U := hold m κ u with hU
  set L := seen' γ s0 ρ0 v (U p) + base γ s0 ρ0 with hL
  have hL0 : 0 ≤ L := warm_seen hγ hs0 (hu p) h0 v
  have hS := surface_seen γ hr p s0 ρ0 v (U p)
  have f1 : (m.faces.map fun f =>
      (if f.1 = p then face f.2.2 (fun q => seen' γ s0 ρ0 v (q.solver (U f.1) (U f.2.1))) else 0) -
      (if f.2.1 = p then face f.2.2 (fun q => seen' γ s0 ρ0 v (q.solver (U f.1) (U f.2.1))) else 0)).sum ≤
      (m.faces.map fun f => (if f.1 = p then face f.2.2 (fun q => seen' γ s0 ρ0 v (flux γ (q.frame 0) (U p))) else 0) -
        (if f.2.1 = p then face f.2.2 (fun q => seen' γ s0 ρ0 v (flux γ (q.frame 0) (U p))) else 0)).sum +
      L * (m.faces.map fun f => (if f.1 = p then face f.2.2 α else 0) + (if f.2.1 = p then face f.2.2 α else 0)).sum := by
    rw [← Energy.sum_map_mul', ← Energy.sum_map_add']
    refine List.sum_le_sum fun f hf => ?_
    have keep : ∀ q ∈ f.2.2, _ := fun q hq => face_spares hγ (hr.frames f hf q hq) hs0 (hu f.1) (hu f.2.1)
      (hi f hf q hq _ _ (hu f.1).1 (hu f.2.1).1 (b1 f hf q hq)) (b2 f hf q hq) (b3 f hf q hq) h0 v
    refine ite_le (fun hp => ?_) (fun hp => ?_)
    · have := face_lin2 f.2.2 1 L (fun q => seen' γ s0 ρ0 v (flux γ (q.frame 0) (U p))) α
      rw [one_mul] at this
      rw [← this]
      refine face_mono (hr.weights f hf) fun q hq => ?_
      have k := (keep q hq).1
      unfold Spares at k
      rw [hp] at k
      rw [hp]
      linarith
    · have := face_lin2 f.2.2 1 L (fun q => seen' γ s0 ρ0 v (q.solver (U f.1) (U f.2.1))) α
      rw [one_mul] at this
      rw [← this]
      refine face_mono (hr.weights f hf) fun q hq => ?_
      have k := (keep q hq).2
      unfold Spares' at k
      rw [hp] at k
      rw [hp]
      linarith
  have f2 := rims_le hr c.solidWall id p L (fun _ q => seen' γ s0 ρ0 v (solidWall γ q.frame (U p)))
    (fun q => seen' γ s0 ρ0 v (flux γ (q.frame 0) (U p))) α (by
    intro name hn faces hfc x hx q hq hp
    have k := hw name hn faces hfc x hx q hq
    rw [hp] at k
    rw [wall_flux hγ (hr.edges name faces hfc x hx q hq) (hu p).1 k]
    have k3 := mul_nonneg hL0 (b4 name hn faces hfc x hx q hq)
    linarith)
  have f3 := rims_le hr c.supersonicInlet Prod.fst p L
    (fun nf q => seen' γ s0 ρ0 v (supersonicInlet γ q.frame (tup (nf.2 q.coord t))))
    (fun q => seen' γ s0 ρ0 v (flux γ (q.frame 0) (U p))) α (by
    intro nf hn faces hfc x hx q hq hp
    obtain ⟨i1, i2, i3⟩ := hin nf hn faces hfc x hx q hq
    have k2 := b5 nf hn faces hfc x hx q hq
    rw [hp] at i2 i3 k2
    have k := inlet_spares hγ (hr.edges nf.1 faces hfc x hx q hq) hs0 (hu p) i1 i2 i3 k2 h0 v
    unfold Spares at k
    linarith)
  have f4 := rims_le hr c.supersonicOutlet id p L (fun _ q => seen' γ s0 ρ0 v (supersonicOutlet γ q.frame (U p)))
    (fun q => seen' γ s0 ρ0 v (flux γ (q.frame 0) (U p))) α (by
    intro name hn faces hfc x hx q hq hp
    have k : supersonicOutlet γ q.frame (U p) = flux γ (q.frame 0) (U p) := by
      unfold supersonicOutlet
      exact fluxOfPrim_physical hγ (hr.edges name faces hfc x hx q hq) (physical_of_admissible (hu p).1)
    have k2 := b6 name hn faces hfc x hx q hq
    have k3 := mul_nonneg hL0 k2
    rw [k]
    linarith)
  simp only [surface, names, List.map_append, List.sum_append, List.map_map, Function.comp_def] at hS
  simp only [leaves, around, names, List.map_append, List.sum_append, List.map_map, Function.comp_def]
  simp only [id] at f2 f4
  simp only [mul_add]
  linarith

theorem warm_mono {d : Nat} {γ s0 s1 : ℝ} (h : s0 ≤ s1) {a : Tup d} (ha : Warm γ s1 a) : Warm γ s0 a :=
  ⟨ha.1, h.trans ha.2⟩

/-- A step of Euler's method. -/
theorem euler_warm {κ : Fin m.count → ℝ} (hγ : 1 < γ) (hr : Regular m c κ) (hs : Supported c) (hi : Ideally m γ)
    {s0 : ℝ} (hs0 : 0 ≤ s0) {t dt : ℝ} (hdt : 0 ≤ dt) {u : Fin m.count → Coeff 5 0}
    (hu : ∀ p, Warm γ s0 (hold m κ u p)) (hf : Suits m γ s0 c dt t u) (p : Fin m.count) :
    Warm γ s0 (hold m κ (u + dt • m.rates γ c t u) p) := by
  obtain ⟨hw, hin, α, hb, hC⟩ := hf
  have hV := volume_eq hr p
  have hk := mul_self_nonneg (κ p)
  have hk0 : 0 < κ p * κ p := by
    rcases hk.lt_or_eq with h | h
    · exact h
    · rw [← h] at hV; simp at hV
  set β := 1 - dt * (κ p * κ p) * around m c p α with hβ
  have hβ0 : 0 < β := by
    have := mul_lt_mul_of_pos_left (hC p) hk0
    rw [hV] at this
    linarith
  -- any functional
  have key : ∀ s1, 0 ≤ s1 → s1 ≤ s0 → ∀ ρ0, 0 < ρ0 → ∀ v,
      β * (seen' γ s1 ρ0 v (hold m κ u p) + base γ s1 ρ0) ≤
        seen' γ s1 ρ0 v (hold m κ (u + dt • m.rates γ c t u) p) + base γ s1 ρ0 := by
    intro s1 h1 h2 ρ0 h0 v
    have k := leaves_le γ hγ hr h1 (fun p => warm_mono h2 (hu p)) hi hw
      (fun nf hn faces hfc x hx q hq => by
        obtain ⟨i1, i2⟩ := hin nf hn faces hfc x hx q hq
        exact ⟨warm_mono h2 i1, i2⟩) hb p h0 v
    have k2 := mul_le_mul_of_nonneg_left k (mul_nonneg hdt hk)
    rw [euler_seen γ hr hs, hβ]
    linarith
  set U := hold m κ u p with hU
  set W := hold m κ (u + dt • m.rates γ c t u) p with hW
  have hZ : Cone (Tup.sub W (Tup.scale β U)) := by
    intro v
    have := key 0 le_rfl hs0 1 one_pos v
    simp only [seen', heat, base, zero_mul, zero_div, sub_zero, add_zero] at this
    rw [ell_sub, ell_scale]
    linarith
  have e : W = Tup.add (Tup.scale β U) (Tup.sub W (Tup.scale β U)) := by
    apply Tup.ext' <;> intros <;> simp [Tup.add, Tup.sub, Tup.scale]
  have hadm : Admissible γ W := by
    rw [e]
    exact admissible_add hγ (admissible_scale (hu p).1 hβ0) hZ
  refine warm_of_seen hγ hadm (le_trans ?_ (key s0 hs0 le_rfl W.mass hadm.1 (vel W)))
  exact mul_nonneg hβ0.le (warm_seen hγ hs0 (hu p) hadm.1 _)

/-- Mixing warm gases. -/
theorem warm_mix {d : Nat} {γ : ℝ} (hγ : 1 < γ) {s0 : ℝ} (hs0 : 0 ≤ s0) {a b : Tup d} (ha : Warm γ s0 a) (hb : Warm γ s0 b)
    {x : ℝ} (x0 : 0 ≤ x) (x1 : x ≤ 1) : Warm γ s0 (Tup.add (Tup.scale x a) (Tup.scale (1 - x) b)) := by
  have hadm : Admissible γ (Tup.add (Tup.scale x a) (Tup.scale (1 - x) b)) := by
    rcases x0.lt_or_eq with h | h
    · refine admissible_add hγ (admissible_scale ha.1 h) (Cone.scale (fun v => ?_) (by linarith))
      rw [ell_pressure hγ hb.1.1]
      have h1 : 0 < γ - 1 := by linarith
      exact add_nonneg (div_pos hb.1.2 h1).le
        (mul_nonneg hb.1.1.le (div_nonneg (Finset.sum_nonneg fun i _ => mul_self_nonneg _) two_pos.le))
    · have e : Tup.add (Tup.scale x a) (Tup.scale (1 - x) b) = b := by
        subst h
        apply Tup.ext' <;> intros <;> simp [Tup.add, Tup.scale]
      rw [e]
      exact hb.1
  refine warm_of_seen hγ hadm ?_
  generalize hv : vel (Tup.add (Tup.scale x a) (Tup.scale (1 - x) b)) = v
  have hρ := hadm.1
  generalize hm : (Tup.add (Tup.scale x a) (Tup.scale (1 - x) b)).mass = ρ at *
  have k1 := mul_nonneg x0 (warm_seen hγ hs0 ha hρ v)
  have k2 := mul_nonneg (by linarith : 0 ≤ 1 - x) (warm_seen hγ hs0 hb hρ v)
  have e : seen' γ s0 ρ v (Tup.add (Tup.scale x a) (Tup.scale (1 - x) b)) =
      x * seen' γ s0 ρ v a + (1 - x) * seen' γ s0 ρ v b := by
    simp only [seen', ell_add, ell_scale]
    simp only [Tup.add, Tup.scale]
    ring
  rw [e]
  linarith

end MiniCFD.Entropy
