import Verif.Spec.Gas
import Verif.Lemmas.Energy
import Verif.Lemmas.EnergyLinear
import Verif.Lemmas.PositiveRim
import Mathlib.Algebra.BigOperators.Fin

/-! What an observer sees of a step of Euler's method at degree zero. -/

namespace MiniCFD.Gas

open MiniCFD.Spec.Gas MiniCFD.Residual MiniCFD.Projection MiniCFD.Ortho MiniCFD.Euler MiniCFD.Spec.Euler
open MiniCFD.Positive MiniCFD.Spec.WeakForm MiniCFD.Parallel

variable {Pt : Type}

/-! ### Values and states -/

theorem tup_val (c : Tup 2) : tup (val c) = c := by
  refine Tup.ext' rfl (fun i => ?_) rfl
  fin_cases i <;> rfl

/-- The coefficients of the energy seen by an observer. -/
noncomputable def obs (v : Fin 3 → ℝ) : Fin 5 → ℝ := ![(∑ i, v i * v i) / 2, -v 0, -v 1, -v 2, 1]

theorem ell_tup (v : Fin 3 → ℝ) (x : Value 5) : ell v (tup x) = ∑ r, obs v r * x r := by
  have h : ∀ g : Fin (2 + 1) → ℝ, ∑ i, g i = g 0 + g 1 + g 2 := fun g => Fin.sum_univ_three g
  simp only [ell, tup, obs, h, Fin.sum_univ_five, Fin.sum_univ_three]
  simp
  ring

theorem ell_val (v : Fin 3 → ℝ) (c : Tup 2) : ∑ r, obs v r * val c r = ell v c := by rw [← ell_tup, tup_val]

/-! ### Sums -/

theorem sum_map_obs {α : Type*} (l : List α) (c : Fin 5 → ℝ) (g : Fin 5 → α → ℝ) :
    ∑ r, c r * (l.map (g r)).sum = (l.map fun a => ∑ r, c r * g r a).sum := by
  induction l with
  | nil => simp
  | cons a l ih => simp only [List.map_cons, List.sum_cons, mul_add, Finset.sum_add_distrib, ih]

/-- The flux through a face as seen by an observer. -/
theorem over_obs (γ : ℝ) (points : List (Site Pt)) (flux : FacePoint Pt 5 → Value 5) (s : ℝ) (v : Fin 3 → ℝ) :
    ∑ r, obs v r * over (points.map (Site.face γ)) flux (fun _ => s) r =
      s * face points fun q => ell v (tup (flux (q.face γ))) := by
  simp only [over, face, List.map_map]
  rw [sum_map_obs, ← Energy.sum_map_mul']
  refine congrArg List.sum (List.map_congr_left fun q _ => ?_)
  simp only [Function.comp_apply, ell_tup, Finset.mul_sum]
  refine Finset.sum_congr rfl fun r _ => ?_
  show obs v r * (q.weight * _ * s) = _
  ring

theorem obs_ite (b : Prop) [Decidable b] (c g : Fin 5 → ℝ) :
    ∑ r, c r * (if b then g r else 0) = if b then ∑ r, c r * g r else 0 := by
  by_cases h : b <;> simp [h]

theorem ite_mul' (b : Prop) [Decidable b] (s x : ℝ) : (if b then s * x else 0) = s * (if b then x else 0) := by
  by_cases h : b <;> simp [h]

/-! ### The mesh -/

variable (m : Mesh Pt 0) (γ : ℝ) (c : Conditions Pt 5)

/-- The state in a cell. -/
noncomputable def hold (κ : Fin m.count → ℝ) (u : Fin m.count → Coeff 5 0) (p : Fin m.count) : Tup 2 :=
  tup fun r => u p r 0 * κ p

variable {m} in
theorem state_hold {κ : Fin m.count → ℝ} (hκ : Constant m κ) (u : Fin m.count → Coeff 5 0) (p : Fin m.count) (x : Pt) :
    state m p (u p) x = hold m κ u p := by
  unfold state hold
  congr 1
  funext r
  have : ∀ g : Fin (0 + 1) → ℝ, ∑ i, g i = g 0 := fun g => Fin.sum_univ_one g
  rw [this, hκ]

/-- What leaves a cell, seen by an observer. -/
noncomputable def out (v : Fin 3 → ℝ) (t : ℝ) (U : Fin m.count → Tup 2) (p : Fin m.count) : ℝ :=
  (m.faces.map fun f =>
    (if f.1 = p then face f.2.2 (fun q => ell v (q.solver (U f.1) (U f.2.1))) else 0) -
    (if f.2.1 = p then face f.2.2 (fun q => ell v (q.solver (U f.1) (U f.2.1))) else 0)).sum +
  ((c.solidWall.map fun name => rim m name fun h q => if h = p then ell v (solidWall γ q.frame (U p)) else 0).sum +
   (c.supersonicInlet.map fun nf => rim m nf.1 fun h q => if h = p then
      ell v (supersonicInlet γ q.frame (tup (nf.2 q.coord t))) else 0).sum +
   (c.supersonicOutlet.map fun name => rim m name fun h q => if h = p then
      ell v (supersonicOutlet γ q.frame (U p)) else 0).sum)

theorem boundary_obs (u : Fin m.count → Coeff 5 0) (p : Fin m.count) (s : ℝ) (v : Fin 3 → ℝ) (name : String)
    (flux : FacePoint Pt 5 → Value 5 → Value 5) :
    ∑ r, obs v r * outBoundary (fun c q => c.value q.coord) ((m.grid γ).part u) p (fun _ => s) r name flux =
      s * rim m name fun h q => if h = p then
        ell v (tup (flux (q.face γ) (((m.grid γ).cell p (u p)).value q.coord))) else 0 := by
  have hbd : ((m.grid γ).part u).boundary name =
      (m.boundary name).map fun l => l.map fun f => ⟨f.1, f.2.map (Site.face γ)⟩ := rfl
  simp only [outBoundary, rim, hbd]
  cases m.boundary name with
  | none => simp
  | some faces =>
    simp only [Option.map_some]
    rw [sum_map_obs, List.map_map, ← Energy.sum_map_mul']
    refine congrArg List.sum (List.map_congr_left fun f _ => ?_)
    simp only [Function.comp_apply]
    by_cases hp : f.1 = p
    · subst hp
      simp only [if_true]
      refine Eq.trans (Finset.sum_congr rfl fun r _ => congrArg (obs v r * ·) (if_pos rfl)) ?_
      exact over_obs γ f.2 (fun q => flux q (((m.grid γ).cell f.1 (u f.1)).value q.coord)) s v
    · simp only [if_neg hp]
      refine Eq.trans (Finset.sum_congr rfl fun r _ => congrArg (obs v r * ·) (if_neg hp)) ?_
      simp [face]

theorem local_obs (u : Fin m.count → Coeff 5 0) (p : Fin m.count) (s : ℝ) (v : Fin 3 → ℝ) :
    ∑ r, obs v r * outLocal (fun c q => c.value q.coord) ((m.grid γ).part u) p (fun _ => s) r =
      s * (m.faces.map fun f =>
        (if f.1 = p then face f.2.2 (fun q => ell v (q.solver (tup (((m.grid γ).cell f.1 (u f.1)).value q.coord))
          (tup (((m.grid γ).cell f.2.1 (u f.2.1)).value q.coord)))) else 0) -
        (if f.2.1 = p then face f.2.2 (fun q => ell v (q.solver (tup (((m.grid γ).cell f.1 (u f.1)).value q.coord))
          (tup (((m.grid γ).cell f.2.1 (u f.2.1)).value q.coord)))) else 0)).sum := by
  simp only [outLocal]
  have hl : ((m.grid γ).part u).localFaces = m.faces.map fun f => ⟨f.1, f.2.1, f.2.2.map (Site.face γ)⟩ := rfl
  rw [sum_map_obs, hl, List.map_map, ← Energy.sum_map_mul']
  refine congrArg List.sum (List.map_congr_left fun f _ => ?_)
  simp only [Function.comp_apply, mul_sub, Finset.sum_sub_distrib]
  have ov := over_obs γ f.2.2 (fun q => q.riemann.upwind (((m.grid γ).cell f.1 (u f.1)).value q.coord)
    (((m.grid γ).cell f.2.1 (u f.2.1)).value q.coord)) s v
  simp only [Site.face, riemann, tup_val] at ov
  have half : ∀ (b : Prop) [Decidable b], ∑ r, obs v r * (if b then over (f.2.2.map (Site.face γ))
      (fun q => q.riemann.upwind (((m.grid γ).cell f.1 (u f.1)).value q.coord)
    (((m.grid γ).cell f.2.1 (u f.2.1)).value q.coord)) (fun _ => s) r else 0) =
    s * (if b then face f.2.2 (fun q => ell v (q.solver (tup (((m.grid γ).cell f.1 (u f.1)).value q.coord))
          (tup (((m.grid γ).cell f.2.1 (u f.2.1)).value q.coord)))) else 0) := by
    intro b _
    by_cases hb : b
    · simp only [hb, if_true]
      exact ov
    · simp [hb]
  exact congrArg₂ (· - ·) (half (f.1 = p)) (half (f.2.1 = p))

variable {m c}

/-- A step of Euler's method, seen by an observer. -/
theorem euler_obs {κ : Fin m.count → ℝ} (hr : Regular m c κ) (hs : Supported c) (t dt : ℝ) (u : Fin m.count → Coeff 5 0)
    (p : Fin m.count) (v : Fin 3 → ℝ) :
    ell v (hold m κ (u + dt • m.rates γ c t u) p) =
      ell v (hold m κ u p) - dt * (κ p * κ p) * out m γ c v t (hold m κ u) p := by
  have hj : ∀ job ∈ jobs c t, ((m.grid γ).part u).boundary job.1 ≠ none := by
    intro job hjob
    have : job.1 ∈ names c := by
      simp only [jobs, hs.subsonicInlet, hs.subsonicOutlet, hs.smart, List.map_nil, List.append_nil, List.mem_append,
        List.mem_map] at hjob
      simp only [names, List.mem_append, List.mem_map]
      rcases hjob with (⟨x, hx, rfl⟩ | ⟨x, hx, rfl⟩) | ⟨x, hx, rfl⟩
      · exact Or.inl (Or.inl hx)
      · exact Or.inl (Or.inr ⟨x, hx, rfl⟩)
      · exact Or.inr hx
    have := hr.known _ this
    show (m.boundary job.1).map _ ≠ none
    simpa using this
  have h0 : (0 : Nat) = 0 → ∀ p : Fin ((m.grid γ).part u).count, ∀ v ∈ (((m.grid γ).part u).cells p).volume, ∀ k i,
      v.grad k i = 0 := by
    intro _ p v hv k i
    obtain ⟨xw, -, rfl⟩ := List.mem_map.1 hv
    exact hr.flat _ _ _ _
  have hb : (fun q : FacePoint Pt 5 => (((m.grid γ).part u).cells p).basis q.coord 0) = fun _ => κ p := by
    funext q
    exact hr.constant p q.coord 0
  have hin : ∀ r, inside (((m.grid γ).part u).cells p) r 0 = 0 := by
    intro r
    refine List.sum_eq_zero fun y hy => ?_
    obtain ⟨w, hw, rfl⟩ := List.mem_map.1 hy
    simp [h0 rfl p w hw]
  have hgh : ∀ r, outGhost (fun c q => c.value q.coord) ((m.grid γ).part u) p (fun _ => κ p) r = 0 := by
    intro r
    simp [outGhost, Grid.part]
  have hval : ∀ (h : Fin m.count) (x : Pt), tup (((m.grid γ).cell h (u h)).value x) = hold m κ u h := fun h x =>
    state_hold hr.constant u h x
  have e0 : ∀ r, m.rates γ c t u p r 0 = -(outLocal (fun c q => c.value q.coord) ((m.grid γ).part u) p (fun _ => κ p) r +
      outBoundaries (fun c q => c.value q.coord) ((m.grid γ).part u) c t p (fun _ => κ p) r) := by
    intro r
    refine (rates_weak hj h0 p r 0).2.trans ?_
    unfold weakForm
    rw [hb, hin, hgh]
    ring
  have e1 : ∑ r, obs v r * m.rates γ c t u p r 0 = -(κ p * out m γ c v t (hold m κ u) p) := by
    simp only [e0, mul_neg, Finset.sum_neg_distrib, mul_add, Finset.sum_add_distrib]
    rw [local_obs]
    have eb : ∑ r, obs v r * outBoundaries (fun c q => c.value q.coord) ((m.grid γ).part u) c t p (fun _ => κ p) r =
        κ p * ((c.solidWall.map fun name => rim m name fun h q => if h = p then
            ell v (solidWall γ q.frame (hold m κ u p)) else 0).sum +
          (c.supersonicInlet.map fun nf => rim m nf.1 fun h q => if h = p then
            ell v (supersonicInlet γ q.frame (tup (nf.2 q.coord t))) else 0).sum +
          (c.supersonicOutlet.map fun name => rim m name fun h q => if h = p then
            ell v (supersonicOutlet γ q.frame (hold m κ u p)) else 0).sum) := by
      unfold outBoundaries
      simp only [hs.subsonicInlet, hs.subsonicOutlet, hs.smart, List.map_nil, List.sum_nil, add_zero, mul_add,
        Finset.sum_add_distrib, sum_map_obs, boundary_obs, Energy.sum_map_mul', Site.face, riemann, tup_val, hval]
      ring
    rw [eb]
    simp only [hval, out]
    ring
  have e2 : ell v (hold m κ (u + dt • m.rates γ c t u) p) =
      ell v (hold m κ u p) + dt * κ p * ∑ r, obs v r * m.rates γ c t u p r 0 := by
    unfold hold
    rw [ell_tup, ell_tup, Finset.mul_sum, ← Finset.sum_add_distrib]
    refine Finset.sum_congr rfl fun r _ => ?_
    show obs v r * ((u p r 0 + dt * m.rates γ c t u p r 0) * κ p) = _
    ring
  rw [e2, e1]
  ring

/-! ### Bounds -/

theorem face_mono {points : List (Site Pt)} (hw : ∀ q ∈ points, 0 ≤ q.weight) {f g : Site Pt → ℝ}
    (h : ∀ q ∈ points, f q ≤ g q) : face points f ≤ face points g :=
  List.sum_le_sum fun q hq => mul_le_mul_of_nonneg_left (h q hq) (hw q hq)

theorem face_lin2 (points : List (Site Pt)) (x y : ℝ) (f g : Site Pt → ℝ) :
    face points (fun q => x * f q + y * g q) = x * face points f + y * face points g := by
  simp only [face]
  induction points with
  | nil => simp
  | cons a l ih => simp only [List.map_cons, List.sum_cons, ih]; ring

theorem rim_lin2 (name : String) (x y : ℝ) (f g : Fin m.count → Site Pt → ℝ) :
    rim m name (fun h q => x * f h q + y * g h q) = x * rim m name f + y * rim m name g := by
  simp only [rim]
  cases m.boundary name with
  | none => simp
  | some faces =>
    simp only [face_lin2]
    induction faces with
    | nil => simp
    | cons a l ih => simp only [List.map_cons, List.sum_cons, ih]; ring

theorem rim_le (hw : ∀ name, OnRim m name fun _ q => 0 ≤ q.weight) (name : String) {f g : Fin m.count → Site Pt → ℝ}
    (h : OnRim m name fun p q => f p q ≤ g p q) : rim m name f ≤ rim m name g := by
  simp only [rim]
  cases hn : m.boundary name with
  | none => simp
  | some faces =>
    refine List.sum_le_sum fun x hx => ?_
    exact face_mono (hw name faces hn x hx) (h faces hn x hx)

theorem surface_lin2 (p : Fin m.count) (x y : ℝ) (f g : Site Pt → ℝ) :
    surface m c p (fun q => x * f q + y * g q) = x * surface m c p f + y * surface m c p g := by
  have h1 : ∀ name, rim m name (fun h q => if h = p then x * f q + y * g q else 0) =
      x * rim m name (fun h q => if h = p then f q else 0) + y * rim m name (fun h q => if h = p then g q else 0) := by
    intro name
    rw [← rim_lin2]
    congr 1
    funext h q
    by_cases hp : h = p <;> simp [hp]
  have h2 : ∀ f' : Fin m.count × Fin m.count × List (Site Pt),
      ((if f'.1 = p then face f'.2.2 (fun q => x * f q + y * g q) else 0) -
        (if f'.2.1 = p then face f'.2.2 (fun q => x * f q + y * g q) else 0)) =
      x * ((if f'.1 = p then face f'.2.2 f else 0) - (if f'.2.1 = p then face f'.2.2 f else 0)) +
      y * ((if f'.1 = p then face f'.2.2 g else 0) - (if f'.2.1 = p then face f'.2.2 g else 0)) := by
    intro f'
    rw [face_lin2]
    by_cases a : f'.1 = p <;> by_cases b : f'.2.1 = p <;> simp [a, b] <;> ring
  simp only [surface, h1, h2, Energy.list_lin2]
  ring

/-- The flux of one state through a closed surface. -/
theorem surface_flux {κ : Fin m.count → ℝ} (hr : Regular m c κ) (p : Fin m.count) (v : Fin 3 → ℝ) (U : Tup 2) :
    surface m c p (fun q => ell v (flux γ (q.frame 0) U)) = 0 := by
  have hl : ∃ g : Fin 3 → ℝ, ∀ nu : Fin 3 → ℝ, ell v (flux γ nu U) = g 0 * nu 0 + 1 * (g 1 * nu 1 + g 2 * nu 2) := by
    refine ⟨fun k => vel U k * ell v U + pressure γ U * (vel U k - v k), fun nu => ?_⟩
    have h : ∀ g : Fin (2 + 1) → ℝ, ∑ i, g i = g 0 + g 1 + g 2 := fun g => Fin.sum_univ_three g
    simp only [ell, flux, velAlong, h]
    ring
  obtain ⟨g, hg⟩ := hl
  simp only [hg]
  rw [surface_lin2, surface_lin2, hr.closed, hr.closed, hr.closed]
  ring

theorem ite_le {P Q : Prop} [Decidable P] [Decidable Q] {H G X Y : ℝ} {L : ℝ} (i1 : P → H ≤ G + L * X)
    (i2 : Q → G ≤ H + L * Y) :
    (if P then H else 0) - (if Q then H else 0) ≤
      (if P then G else 0) - (if Q then G else 0) + L * ((if P then X else 0) + (if Q then Y else 0)) := by
  by_cases hP : P <;> by_cases hQ : Q <;> simp only [hP, hQ, if_true, if_false]
  · have := i1 hP; have := i2 hQ; linarith
  · have := i1 hP; linarith
  · have := i2 hQ; linarith
  · simp

theorem ell_nonneg {γ : ℝ} (hγ : 1 < γ) {U : Tup 2} (hU : Admissible γ U) (v : Fin 3 → ℝ) : 0 ≤ ell v U := by
  rw [ell_pressure hγ hU.1]
  have h1 : 0 < γ - 1 := by linarith
  exact add_nonneg (div_pos hU.2 h1).le
    (mul_nonneg hU.1.le (div_nonneg (Finset.sum_nonneg fun i _ => mul_self_nonneg _) two_pos.le))

/-- One kind of boundary. -/
theorem rims_le {κ : Fin m.count → ℝ} (hr : Regular m c κ) {β : Type*} (l : List β) (name : β → String) (p : Fin m.count)
    (L : ℝ) (f : β → Site Pt → ℝ) (g α : Site Pt → ℝ)
    (h : ∀ b ∈ l, OnRim m (name b) fun h q => h = p → f b q ≤ g q + L * α q) :
    (l.map fun b => rim m (name b) fun h q => if h = p then f b q else 0).sum ≤
      (l.map fun b => rim m (name b) fun h q => if h = p then g q else 0).sum +
      L * (l.map fun b => rim m (name b) fun h q => if h = p then α q else 0).sum := by
  rw [← Energy.sum_map_mul', ← Energy.sum_map_add']
  refine List.sum_le_sum fun b hb => ?_
  have := rim_lin2 (m := m) (name b) 1 L (fun h q => if h = p then g q else 0) (fun h q => if h = p then α q else 0)
  rw [one_mul] at this
  rw [← this]
  refine rim_le hr.rims (name b) fun faces hfc x hx q hq => ?_
  have key := h b hb faces hfc x hx q hq
  by_cases hp : x.1 = p
  · simp only [hp, if_true, one_mul]
    exact key hp
  · simp [hp]

/-- A cell does not lose more than it can. -/
theorem out_le {κ : Fin m.count → ℝ} (hγ : 1 < γ) (hr : Regular m c κ) {t : ℝ}
    {u : Fin m.count → Coeff 5 0} (hu : ∀ p, Admissible γ (hold m κ u p)) (hi : Inflow m γ c t) {α : Site Pt → ℝ}
    (hb : Edges m γ c u α) (hk : ∀ f ∈ m.faces, ∀ q ∈ f.2.2, Keeps γ (α q) (q.frame 0) (hold m κ u f.1) (hold m κ u f.2.1)
      (q.solver (hold m κ u f.1) (hold m κ u f.2.1))) (p : Fin m.count) (v : Fin 3 → ℝ) :
    out m γ c v t (hold m κ u) p ≤ ell v (hold m κ u p) * around m c p α := by
  obtain ⟨b4, b5, b6⟩ := hb
  simp only [state_hold hr.constant] at b4 b5 b6
  set U := hold m κ u with hU
  set L := ell v (U p) with hL
  have hL0 : 0 ≤ L := ell_nonneg hγ (hu p) v
  have hS := surface_flux γ hr p v (U p)
  have f1 : (m.faces.map fun f =>
      (if f.1 = p then face f.2.2 (fun q => ell v (q.solver (U f.1) (U f.2.1))) else 0) -
      (if f.2.1 = p then face f.2.2 (fun q => ell v (q.solver (U f.1) (U f.2.1))) else 0)).sum ≤
      (m.faces.map fun f => (if f.1 = p then face f.2.2 (fun q => ell v (flux γ (q.frame 0) (U p))) else 0) -
        (if f.2.1 = p then face f.2.2 (fun q => ell v (flux γ (q.frame 0) (U p))) else 0)).sum +
      L * (m.faces.map fun f => (if f.1 = p then face f.2.2 α else 0) + (if f.2.1 = p then face f.2.2 α else 0)).sum := by
    rw [← Energy.sum_map_mul', ← Energy.sum_map_add']
    refine List.sum_le_sum fun f hf => ?_
    have keep := hk f hf
    refine ite_le (fun hp => ?_) (fun hp => ?_)
    · have := face_lin2 f.2.2 1 L (fun q => ell v (flux γ (q.frame 0) (U p))) α
      rw [one_mul] at this
      rw [← this]
      refine face_mono (hr.weights f hf) fun q hq => ?_
      have k := (keep q hq).1 v
      rw [ell_sub, ell_add, ell_scale, hp] at k
      rw [hp]
      linarith
    · have := face_lin2 f.2.2 1 L (fun q => ell v (q.solver (U f.1) (U f.2.1))) α
      rw [one_mul] at this
      rw [← this]
      refine face_mono (hr.weights f hf) fun q hq => ?_
      have k := (keep q hq).2 v
      rw [ell_add, ell_sub, ell_scale, hp] at k
      rw [hp]
      linarith
  have f2 := rims_le hr c.solidWall id p L (fun _ q => ell v (solidWall γ q.frame (U p)))
    (fun q => ell v (flux γ (q.frame 0) (U p))) α (by
    intro name hn faces hfc x hx q hq hp
    have k := wall_cone hγ (hr.edges name faces hfc x hx q hq) (hu p) v
    have k2 := b4 name hn faces hfc x hx q hq
    rw [hp] at k2
    have k3 := mul_le_mul_of_nonneg_left k2 hL0
    rw [ell_sub, ell_add, ell_scale] at k
    linarith)
  have f3 := rims_le hr c.supersonicInlet Prod.fst p L
    (fun nf q => ell v (supersonicInlet γ q.frame (tup (nf.2 q.coord t))))
    (fun q => ell v (flux γ (q.frame 0) (U p))) α (by
    intro nf hn faces hfc x hx q hq hp
    obtain ⟨i1, i2⟩ := hi nf hn faces hfc x hx q hq
    have k := inlet_cone hγ (hr.edges nf.1 faces hfc x hx q hq) i1 (hu p) i2 v
    have k2 := b5 nf hn faces hfc x hx q hq
    rw [hp] at k2
    have k3 := mul_le_mul_of_nonneg_left k2 hL0
    rw [ell_sub, ell_add, ell_scale] at k
    linarith)
  have f4 := rims_le hr c.supersonicOutlet id p L (fun _ q => ell v (supersonicOutlet γ q.frame (U p)))
    (fun q => ell v (flux γ (q.frame 0) (U p))) α (by
    intro name hn faces hfc x hx q hq hp
    have k : supersonicOutlet γ q.frame (U p) = flux γ (q.frame 0) (U p) := by
      unfold supersonicOutlet
      exact fluxOfPrim_physical hγ (hr.edges name faces hfc x hx q hq) (physical_of_admissible (hu p))
    have k2 := b6 name hn faces hfc x hx q hq
    have k3 := mul_nonneg hL0 k2
    rw [k]
    linarith)
  simp only [surface, names, List.map_append, List.sum_append, List.map_map, Function.comp_def] at hS
  simp only [out, around, names, List.map_append, List.sum_append, List.map_map, Function.comp_def]
  simp only [id] at f2 f4
  simp only [mul_add]
  linarith

/-- The volume of a cell. -/
theorem volume_eq {κ : Fin m.count → ℝ} (hr : Regular m c κ) (p : Fin m.count) : κ p * κ p * volume m p = 1 := by
  have h := hr.norm p
  simp only [hr.constant p] at h
  have : ∀ s : ℝ, integrate (fun _ : Pt => s) (m.basis p).rule = s * integrate (fun _ => 1) (m.basis p).rule := by
    intro s
    have := Energy.integrate_lin2 (m.basis p).rule s 0 (fun _ => 1) (fun _ => 0)
    simpa using this
  rw [this] at h
  exact h

/-- A step of Euler's method. -/
theorem euler_keeps {κ : Fin m.count → ℝ} (hγ : 1 < γ) (hr : Regular m c κ) (hs : Supported c)
    {t dt : ℝ} (h0 : 0 ≤ dt) {u : Fin m.count → Coeff 5 0}
    (hu : ∀ p, Admissible γ (hold m κ u p)) (hi : Inflow m γ c t) {α : Site Pt → ℝ} (hb : Edges m γ c u α)
    (hk' : ∀ f ∈ m.faces, ∀ q ∈ f.2.2, Keeps γ (α q) (q.frame 0) (hold m κ u f.1) (hold m κ u f.2.1)
      (q.solver (hold m κ u f.1) (hold m κ u f.2.1))) (hC : Courant m c dt α) (p : Fin m.count) :
    Admissible γ (hold m κ (u + dt • m.rates γ c t u) p) := by
  have hV := volume_eq hr p
  have hk := mul_self_nonneg (κ p)
  have hk0 : 0 < κ p * κ p := by
    rcases hk.lt_or_eq with h | h
    · exact h
    · rw [← h] at hV; simp at hV
  set β := 1 - dt * (κ p * κ p) * around m c p α with hβ
  have hβ0 : 0 < β := by
    have := mul_lt_mul_of_pos_left (hC p) hk0
    rw [hV] at this
    linarith
  set U := hold m κ u p with hU
  set W := hold m κ (u + dt • m.rates γ c t u) p with hW
  have hZ : Cone (Tup.sub W (Tup.scale β U)) := by
    intro v
    rw [ell_sub, ell_scale, hW, euler_obs γ hr hs]
    have k := out_le γ hγ hr hu hi hb hk' p v
    have k2 := mul_le_mul_of_nonneg_left k (mul_nonneg h0 hk)
    rw [hβ]
    linarith
  have e : W = Tup.add (Tup.scale β U) (Tup.sub W (Tup.scale β U)) := by
    apply Tup.ext' <;> intros <;> simp [Tup.add, Tup.sub, Tup.scale]
  rw [e]
  exact admissible_add hγ (admissible_scale (hu p) hβ0) hZ

theorem euler_positive {κ : Fin m.count → ℝ} (hγ : 1 < γ) (h3 : γ ≤ 3) (hr : Regular m c κ) (hs : Supported c)
    (he : Exactly m γ) {t dt : ℝ} (h0 : 0 ≤ dt) {u : Fin m.count → Coeff 5 0}
    (hu : ∀ p, Admissible γ (hold m κ u p)) (hf : Fits m γ c dt t u) (p : Fin m.count) :
    Admissible γ (hold m κ (u + dt • m.rates γ c t u) p) := by
  obtain ⟨hi, α, hb, hC⟩ := hf
  refine euler_keeps γ hγ hr hs h0 hu hi hb.edges (fun f hf q hq => ?_) hC p
  obtain ⟨-, b1, b2, b3⟩ := hb
  simp only [state_hold hr.constant] at b1 b2 b3
  obtain ⟨fuel, s, w, e⟩ := he f hf q hq _ _ (hu f.1) (hu f.2.1) (b1 f hf q hq)
  have hp := impact_pressure hγ (F := q.frame) (hu f.1) (hu f.2.1)
  exact call_keeps hγ h3 (hr.frames f hf q hq) (hu _) (hu _) (b1 f hf q hq) hp.1 hp.2 (b2 f hf q hq) (b3 f hf q hq) e

theorem euler_positive_hllc {κ : Fin m.count → ℝ} (hγ : 1 < γ) (hr : Regular m c κ) (hs : Supported c)
    (he : Hllc m γ) {t dt : ℝ} (h0 : 0 ≤ dt) {u : Fin m.count → Coeff 5 0}
    (hu : ∀ p, Admissible γ (hold m κ u p)) (hf : FitsHllc m γ c dt t u) (p : Fin m.count) :
    Admissible γ (hold m κ (u + dt • m.rates γ c t u) p) := by
  obtain ⟨hi, α, hb, hC⟩ := hf
  refine euler_keeps γ hγ hr hs h0 hu hi hb.edges (fun f hf q hq => ?_) hC p
  obtain ⟨-, b2, b3⟩ := hb
  simp only [state_hold hr.constant] at b2 b3
  rw [he f hf q hq]
  exact hllc_keeps hγ (hr.frames f hf q hq) (hu _) (hu _) (b2 f hf q hq) (b3 f hf q hq)

end MiniCFD.Gas
