import Verif.Spec.Carry
import Verif.Lemmas.Turn
import Verif.Props.Euler
import Mathlib.Tactic.Module

/-! The rates of a density wave, and steps along a straight line. -/

namespace MiniCFD.Carry

open MiniCFD.Gas MiniCFD.Residual MiniCFD.Projection MiniCFD.Ortho MiniCFD.Euler MiniCFD.Spec.Euler MiniCFD.Spec.Turn
open MiniCFD.Spec.Carry MiniCFD.Parallel MiniCFD.RK
open MiniCFD.Spec.WeakForm (over inside outLocal outBoundary outBoundaries)

variable {Pt : Type} {n : Nat}

/-! ### The wave -/

/-- How the components of the gas depend on the density. -/
noncomputable def part (v : Fin 3 → ℝ) : Fin 5 → ℝ := ![1, v 0, v 1, v 2, (v 0 ^ 2 + v 1 ^ 2 + v 2 ^ 2) / 2]

/-- What does not depend on the density in the flux. -/
noncomputable def fixed (γ : ℝ) (v : Fin 3 → ℝ) (P : ℝ) (k : Fin 3) : Fin 5 → ℝ :=
  ![0, if 0 = k then P else 0, if 1 = k then P else 0, if 2 = k then P else 0, γ / (γ - 1) * P * v k]

theorem three {α : Type*} [AddCommMonoid α] (g : Fin (2 + 1) → α) : ∑ i, g i = g 0 + g 1 + g 2 := Fin.sum_univ_three g

theorem carried_pressure {γ : ℝ} (hγ : 1 < γ) (v : Fin 3 → ℝ) (P : ℝ) {ρ : ℝ} (hρ : 0 < ρ) :
    pressure γ (carried γ v P ρ) = P := by
  have h : γ - 1 ≠ 0 := by linarith
  have := hρ.ne'
  unfold pressure carried
  rw [three]
  field_simp
  ring

theorem carried_admissible {γ : ℝ} (hγ : 1 < γ) (v : Fin 3 → ℝ) {P : ℝ} (hP : 0 < P) {ρ : ℝ} (hρ : 0 < ρ) :
    Admissible γ (carried γ v P ρ) := ⟨hρ, by rw [carried_pressure hγ v P hρ]; exact hP⟩

/-- The flux matrix of the wave is linear in the density. -/
theorem carried_flux {γ : ℝ} (hγ : 1 < γ) (v : Fin 3 → ℝ) {P : ℝ} (hP : 0 < P) {ρ : ℝ} (hρ : 0 < ρ) (k : Fin 3)
    (r : Fin 5) : val (fluxMatrix γ (carried γ v P ρ) k) r = part v r * (v k * ρ) + fixed γ v P k r := by
  have h : γ - 1 ≠ 0 := by linarith
  have hne := hρ.ne'
  have hp : toPrim γ (carried γ v P ρ) = ⟨ρ, v, P⟩ := by
    rw [toPrim_physical hγ (physical_of_admissible (carried_admissible hγ v hP hρ))]
    refine Positive.Tup.ext' rfl (fun i => ?_) (carried_pressure hγ v P hρ)
    show ρ * v i / ρ = v i
    field_simp
  unfold fluxMatrix
  rw [hp]
  have hk : ∀ i : Fin 3, (if i = k then (carried γ v P ρ).mom i * v k + P else (carried γ v P ρ).mom i * v k) =
      v i * (v k * ρ) + if i = k then P else 0 := by
    intro i
    have : (carried γ v P ρ).mom i = ρ * v i := rfl
    rw [this]
    split_ifs <;> ring
  fin_cases r
  · show ρ * v k = 1 * (v k * ρ) + 0
    ring
  · exact hk 0
  · exact hk 1
  · exact hk 2
  · show (P / (γ - 1) + ρ * (v 0 ^ 2 + v 1 ^ 2 + v 2 ^ 2) / 2 + P) * v k =
      (v 0 ^ 2 + v 1 ^ 2 + v 2 ^ 2) / 2 * (v k * ρ) + γ / (γ - 1) * P * v k
    field_simp
    ring

/-- The flux through a face is the flux matrix times the normal. -/
theorem flux_val {γ : ℝ} (hγ : 1 < γ) {F : Frame 2} (h : Orthonormal F) {c : Tup 2} (hc : Admissible γ c) (r : Fin 5) :
    val (flux γ (F 0) c) r = ∑ k, val (fluxMatrix γ c k) r * F 0 k := by
  rw [← fluxOfPrim_physical hγ h (physical_of_admissible hc), flux_matrix_normal hγ h c (physical_of_admissible hc)]
  fin_cases r <;> rfl

/-- The flux of the wave through a face. -/
noncomputable def through (γ : ℝ) (v : Fin 3 → ℝ) (P ρ : ℝ) (r : Fin 5) (nu : Fin 3 → ℝ) : ℝ :=
  ∑ k, (part v r * (v k * ρ) + fixed γ v P k r) * nu k

theorem flux_through {γ : ℝ} (hγ : 1 < γ) {F : Frame 2} (h : Orthonormal F) (v : Fin 3 → ℝ) {P : ℝ} (hP : 0 < P) {ρ : ℝ}
    (hρ : 0 < ρ) (r : Fin 5) : val (flux γ (F 0) (carried γ v P ρ)) r = through γ v P ρ r (F 0) := by
  rw [flux_val hγ h (carried_admissible hγ v hP hρ)]
  exact Finset.sum_congr rfl fun k _ => by rw [carried_flux hγ v hP hρ]

theorem wall_through {γ : ℝ} (hγ : 1 < γ) {F : Frame 2} (h : Orthonormal F) (v : Fin 3 → ℝ) {P : ℝ} (hP : 0 < P) {ρ : ℝ}
    (hρ : 0 < ρ) (hv : ∑ k, v k * F 0 k = 0) (r : Fin 5) :
    val (solidWall γ F (carried γ v P ρ)) r = through γ v P ρ r (F 0) := by
  rw [← flux_through hγ h v hP hρ, solid_wall hγ F _ (physical_of_admissible (carried_admissible hγ v hP hρ))]
  have hz : velAlong (F 0) (carried γ v P ρ) = 0 := by
    rw [← hv]
    refine Finset.sum_congr rfl fun k _ => ?_
    show ρ * v k / ρ * F 0 k = v k * F 0 k
    rw [mul_div_cancel_left₀ _ hρ.ne']
  unfold flux
  rw [hz]
  congr 1
  refine Positive.Tup.ext' ?_ (fun i => ?_) ?_ <;> simp

/-! ### Surfaces -/

section

variable (m : Mesh Pt n) (c : Conditions Pt 5)

theorem face_add (l : List (Site Pt)) (x y : ℝ) (f g : Site Pt → ℝ) :
    face l (fun q => x * f q + y * g q) = x * face l f + y * face l g := by
  simp only [face]
  induction l with
  | nil => simp
  | cons q l ih =>
    simp only [List.map_cons, List.sum_cons, ih]
    ring

theorem map_add {α : Type*} (l : List α) (x y : ℝ) (f g : α → ℝ) :
    (l.map fun a => x * f a + y * g a).sum = x * (l.map f).sum + y * (l.map g).sum := by
  induction l with
  | nil => simp
  | cons q l ih =>
    simp only [List.map_cons, List.sum_cons, ih]
    ring

theorem surface_add (p : Fin m.count) (x y : ℝ) (f g : Site Pt → ℝ) :
    surface m c p (fun q => x * f q + y * g q) = x * surface m c p f + y * surface m c p g := by
  have hr : ∀ name, rim m p (fun q => x * f q + y * g q) name = x * rim m p f name + y * rim m p g name := by
    intro name
    simp only [rim]
    cases m.boundary name with
    | none => simp
    | some faces =>
      simp only
      rw [← map_add]
      refine congrArg List.sum (List.map_congr_left fun a _ => ?_)
      rw [face_add]
      split_ifs <;> simp
  have hn : ((names c).map (rim m p fun q => x * f q + y * g q)).sum =
      x * ((names c).map (rim m p f)).sum + y * ((names c).map (rim m p g)).sum := by
    rw [← map_add]
    exact congrArg List.sum (List.map_congr_left fun a _ => hr a)
  have hf : (m.faces.map fun a => (if a.1 = p then face a.2.2 (fun q => x * f q + y * g q) else 0) -
      (if a.2.1 = p then face a.2.2 (fun q => x * f q + y * g q) else 0)).sum =
      x * (m.faces.map fun a => (if a.1 = p then face a.2.2 f else 0) - (if a.2.1 = p then face a.2.2 f else 0)).sum +
      y * (m.faces.map fun a => (if a.1 = p then face a.2.2 g else 0) - (if a.2.1 = p then face a.2.2 g else 0)).sum := by
    rw [← map_add]
    refine congrArg List.sum (List.map_congr_left fun a _ => ?_)
    rw [face_add]
    split_ifs <;> ring
  unfold surface
  rw [hn, hf]
  ring

theorem surface_zero (p : Fin m.count) : surface m c p (fun _ => 0) = 0 := by
  have := surface_add m c p 0 0 (fun _ => 0) (fun _ => 0)
  simpa using this

theorem surface_sum {ι : Type*} (s : Finset ι) (p : Fin m.count) (a : ι → ℝ) (g : ι → Site Pt → ℝ) :
    surface m c p (fun q => ∑ k ∈ s, a k * g k q) = ∑ k ∈ s, a k * surface m c p (g k) := by
  classical
  induction s using Finset.induction_on with
  | empty => simpa using surface_zero m c p
  | insert k s hk ih =>
    rw [Finset.sum_insert hk, ← ih]
    have := surface_add m c p (a k) 1 (g k) (fun q => ∑ k ∈ s, a k * g k q)
    rw [one_mul] at this
    rw [← this]
    refine congrArg _ (_root_.funext fun q => ?_)
    rw [Finset.sum_insert hk, one_mul]

end

/-! ### Integrals -/

theorem integrate_add (rule : Rule Pt) (x y : ℝ) (f g : Pt → ℝ) :
    integrate (fun q => x * f q + y * g q) rule = x * integrate f rule + y * integrate g rule := by
  simp only [integrate_eq]
  rw [← map_add]
  exact congrArg List.sum (List.map_congr_left fun a _ => by ring)

theorem integrate_sum {ι : Type*} (s : Finset ι) (rule : Rule Pt) (a : ι → ℝ) (g : ι → Pt → ℝ) :
    integrate (fun q => ∑ k ∈ s, a k * g k q) rule = ∑ k ∈ s, a k * integrate (g k) rule := by
  classical
  induction s using Finset.induction_on with
  | empty => simp [integrate_eq]
  | insert k s hk ih =>
    rw [Finset.sum_insert hk, ← ih]
    have := integrate_add rule (a k) 1 (g k) (fun q => ∑ k ∈ s, a k * g k q)
    rw [one_mul] at this
    rw [← this]
    refine congrArg (integrate · rule) (_root_.funext fun q => ?_)
    rw [Finset.sum_insert hk, one_mul]

theorem integrate_congr {rule : Rule Pt} {f g : Pt → ℝ} (h : ∀ xw ∈ rule, f xw.1 = g xw.1) :
    integrate f rule = integrate g rule := by
  simp only [integrate_eq]
  exact congrArg List.sum (List.map_congr_left fun xw hx => by rw [h xw hx])

variable {m : Mesh Pt n} {c : Conditions Pt 5} {γ : ℝ}

/-- Functions of the space have the coefficients that integrals give. -/
theorem integrate_profile (hr : Regular m c) (p : Fin m.count) (w : Fin (n + 1) → ℝ) (i : Fin (n + 1)) :
    integrate (fun x => basisValues (m.basis p) x i * profile m p w x) (m.basis p).rule = w i := by
  have e : (fun x => basisValues (m.basis p) x i * profile m p w x) = fun x =>
      ∑ j, w j * (basisValues (m.basis p) x i * basisValues (m.basis p) x j) := by
    funext x
    unfold profile
    rw [Finset.mul_sum]
    exact Finset.sum_congr rfl fun j _ => by ring
  rw [e, integrate_sum]
  simp [hr.basis p i]

/-- Integration by parts, against functions of the space. -/
theorem by_parts (hr : Regular m c) (p : Fin m.count) (w : Fin (n + 1) → ℝ) (i : Fin (n + 1)) (k : Fin 3) :
    integrate (fun x => profile m p w x * gradient m p x i k) (m.basis p).rule =
      surface m c p (fun q => q.frame 0 k * (profile m p w q.coord * basisValues (m.basis p) q.coord i)) -
        integrate (fun x => basisValues (m.basis p) x i * Spec.Carry.slope m p w x k) (m.basis p).rule := by
  have h1 : integrate (fun x => ∑ j, w j * (basisValues (m.basis p) x j * gradient m p x i k +
      basisValues (m.basis p) x i * gradient m p x j k)) (m.basis p).rule =
      surface m c p (fun q => ∑ j, w j * (q.frame 0 k *
        (basisValues (m.basis p) q.coord j * basisValues (m.basis p) q.coord i))) := by
    rw [integrate_sum, surface_sum]
    exact Finset.sum_congr rfl fun j _ => by rw [hr.product]
  have e1 : (fun x => ∑ j, w j * (basisValues (m.basis p) x j * gradient m p x i k +
      basisValues (m.basis p) x i * gradient m p x j k)) = fun x => 1 * (profile m p w x * gradient m p x i k) +
        1 * (basisValues (m.basis p) x i * Spec.Carry.slope m p w x k) := by
    funext x
    unfold profile Spec.Carry.slope
    rw [one_mul, one_mul, Finset.sum_mul, Finset.mul_sum, ← Finset.sum_add_distrib]
    exact Finset.sum_congr rfl fun j _ => by ring
  have e2 : (fun q : Site Pt => ∑ j, w j * (q.frame 0 k *
        (basisValues (m.basis p) q.coord j * basisValues (m.basis p) q.coord i))) =
      fun q => q.frame 0 k * (profile m p w q.coord * basisValues (m.basis p) q.coord i) := by
    funext q
    unfold profile
    rw [Finset.sum_mul, Finset.mul_sum]
    exact Finset.sum_congr rfl fun j _ => by ring
  rw [e1, e2, integrate_add] at h1
  linarith

/-! ### The mesh -/

theorem over_site (l : List (Site Pt)) (flux : FacePoint Pt 5 → Value 5) (φ : FacePoint Pt 5 → ℝ) (r : Fin 5)
    {g : Site Pt → ℝ} (h : ∀ q ∈ l, flux (q.face γ) r * φ (q.face γ) = g q) :
    over (l.map (Site.face γ)) flux φ r = face l g := by
  simp only [over, face, List.map_map]
  refine congrArg List.sum (List.map_congr_left fun q hq => ?_)
  rw [← h q hq]
  show q.weight * flux (q.face γ) r * φ (q.face γ) = _
  ring

/-- The wave at a face: what all solvers return. -/
theorem local_wave (hγ : 1 < γ) (hr : Regular m c) (hs : Consistent m γ) {v : Fin 3 → ℝ} {P : ℝ} (hP : 0 < P)
    {ρ : Pt → ℝ} (hρ : ∀ x, Place m x → 0 < ρ x) {u : Fin m.count → Coeff 5 n}
    (hu : ∀ p x, gas m p (u p) x = carried γ v P (ρ x)) (p : Fin m.count) (r : Fin 5) (φ : Pt → ℝ) :
    outLocal (fun c q => c.value q.coord) ((m.grid γ).part u) p (fun q => φ q.coord) r =
      (m.faces.map fun f =>
        (if f.1 = p then face f.2.2 (fun q => through γ v P (ρ q.coord) r (q.frame 0) * φ q.coord) else 0) -
        (if f.2.1 = p then face f.2.2 (fun q => through γ v P (ρ q.coord) r (q.frame 0) * φ q.coord) else 0)).sum := by
  simp only [outLocal]
  have hl : ((m.grid γ).part u).localFaces = m.faces.map fun f => ⟨f.1, f.2.1, f.2.2.map (Site.face γ)⟩ := rfl
  rw [hl, List.map_map]
  refine congrArg List.sum (List.map_congr_left fun f hf => ?_)
  have ov := over_site (γ := γ) f.2.2 (fun q => q.riemann.upwind (((m.grid γ).cell f.1 (u f.1)).value q.coord)
    (((m.grid γ).cell f.2.1 (u f.2.1)).value q.coord)) (fun q => φ q.coord) r
    (g := fun q => through γ v P (ρ q.coord) r (q.frame 0) * φ q.coord) (fun q hq => by
      have h1 : tup (((m.grid γ).cell f.1 (u f.1)).value q.coord) = carried γ v P (ρ q.coord) := hu f.1 q.coord
      have h2 : tup (((m.grid γ).cell f.2.1 (u f.2.1)).value q.coord) = carried γ v P (ρ q.coord) := hu f.2.1 q.coord
      have h0 := hρ _ (.face hf hq)
      show val (q.solver (tup (((m.grid γ).cell f.1 (u f.1)).value q.coord))
        (tup (((m.grid γ).cell f.2.1 (u f.2.1)).value q.coord))) r * φ q.coord = _
      rw [h1, h2, hs f hf q hq _ (carried_admissible hγ v hP h0), flux_through hγ (hr.frames f hf q hq) v hP h0])
  have ite : ∀ (b : Prop) [Decidable b] {x y : ℝ}, x = y → (if b then x else 0) = (if b then y else 0) := by
    intro b _ x y h
    rw [h]
  exact congrArg₂ (· - ·) (ite (f.1 = p) ov) (ite (f.2.1 = p) ov)

/-- The wave at a boundary. -/
theorem boundary_wave {v : Fin 3 → ℝ} {P : ℝ} {ρ : Pt → ℝ} {u : Fin m.count → Coeff 5 n}
    (hu : ∀ p x, gas m p (u p) x = carried γ v P (ρ x)) (p : Fin m.count) (r : Fin 5) (φ : Pt → ℝ) (name : String)
    (flux : FacePoint Pt 5 → Value 5 → Value 5)
    (hf : OnRim m name fun q => ∀ w, tup w = carried γ v P (ρ q.coord) →
      flux (q.face γ) w r = through γ v P (ρ q.coord) r (q.frame 0)) :
    outBoundary (fun c q => c.value q.coord) ((m.grid γ).part u) p (fun q => φ q.coord) r name flux =
      rim m p (fun q => through γ v P (ρ q.coord) r (q.frame 0) * φ q.coord) name := by
  have hb : ((m.grid γ).part u).boundary name =
      (m.boundary name).map fun l => l.map fun f => ⟨f.1, f.2.map (Site.face γ)⟩ := rfl
  simp only [outBoundary, rim, hb]
  cases hn : m.boundary name with
  | none => rfl
  | some faces =>
    simp only [Option.map_some]
    rw [List.map_map]
    refine congrArg List.sum (List.map_congr_left fun f hff => ?_)
    simp only [Function.comp_apply]
    have ov := over_site (γ := γ) f.2 (fun q => flux q (((m.grid γ).cell f.1 (u f.1)).value q.coord))
      (fun q => φ q.coord) r (g := fun q => through γ v P (ρ q.coord) r (q.frame 0) * φ q.coord) (fun q hq => by
        have := hf faces hn f hff q hq _ (hu f.1 q.coord)
        exact congrArg (· * φ q.coord) this)
    have ite : ∀ (b : Prop) [Decidable b] {x y : ℝ}, x = y → (if b then x else 0) = (if b then y else 0) := by
      intro b _ x y h
      rw [h]
    exact ite (f.1 = p) ov

/-- The wave at all boundaries. -/
theorem boundaries_wave (hγ : 1 < γ) (hr : Regular m c) {v : Fin 3 → ℝ} {P : ℝ} (hP : 0 < P)
    {ρ : Pt → ℝ} (hρ : ∀ x, Place m x → 0 < ρ x) {u : Fin m.count → Coeff 5 n}
    (hu : ∀ p x, gas m p (u p) x = carried γ v P (ρ x)) {U : Pt → ℝ → Tup 2} (hc : Fits m v c U) (t : ℝ)
    (hU : ∀ x, U x t = carried γ v P (ρ x)) (p : Fin m.count) (r : Fin 5) (φ : Pt → ℝ) :
    outBoundaries (fun c q => c.value q.coord) ((m.grid γ).part u) c t p (fun q => φ q.coord) r =
      ((names c).map (rim m p fun q => through γ v P (ρ q.coord) r (q.frame 0) * φ q.coord)).sum := by
  refine (outBoundaries_jobs ((m.grid γ).part u) c t (fun c q => c.value q.coord) p (fun q => φ q.coord) r).trans ?_
  have hn : names c = (jobs c t).map Prod.fst := by simp [names, jobs, Function.comp_def]
  rw [hn, List.map_map]
  refine congrArg List.sum (List.map_congr_left fun job hj => ?_)
  refine boundary_wave hu p r φ job.1 job.2 fun faces hb f hf q hq w hw => ?_
  have h0 := hρ _ (.rim hb hf hq)
  have hF := hr.edges job.1 faces hb f hf q hq
  have ha := carried_admissible hγ v hP h0
  have hfl := flux_through hγ hF v hP h0 r
  simp only [jobs, List.mem_append, List.mem_map] at hj
  rcases hj with ((((⟨a, ha', rfl⟩ | ⟨a, ha', rfl⟩) | ⟨a, ha', rfl⟩) | ⟨a, ha', rfl⟩) | ⟨a, ha', rfl⟩) | ⟨a, ha', rfl⟩
  · show val (solidWall γ q.frame (tup w)) r = _
    rw [hw]
    exact wall_through hγ hF v hP h0 (hc.wall a ha' faces hb f hf q hq) r
  · show val (supersonicInlet γ q.frame (tup (a.2 q.coord t))) r = _
    rw [hc.supersonicInlet a ha' faces hb f hf q hq t, hU, ← hfl]
    exact congrArg (val · r) (fluxOfPrim_physical hγ hF (physical_of_admissible ha))
  · show val (supersonicOutlet γ q.frame (tup w)) r = _
    rw [hw, ← hfl]
    exact congrArg (val · r) (fluxOfPrim_physical hγ hF (physical_of_admissible ha))
  · show val (subsonicInlet γ q.frame (tup w) (tup (a.2 q.coord t))) r = _
    rw [hw, hc.subsonicInlet a ha' faces hb f hf q hq t, hU, ← hfl, subsonic_inlet_same hγ hF _ ha]
  · show val (subsonicOutlet γ q.frame (tup w) (tup (a.2 q.coord t))) r = _
    rw [hw, hc.subsonicOutlet a ha' faces hb f hf q hq t, hU, ← hfl, subsonic_outlet_same hγ hF _ ha]
  · show val (smartBoundary γ q.frame (tup w) (tup (a.2 q.coord t))) r = _
    rw [hw, hc.smart a ha' faces hb f hf q hq t, hU, ← hfl, smart_same hγ hF _ ha]

/-- The wave inside of a cell. -/
theorem inside_wave (hγ : 1 < γ) {v : Fin 3 → ℝ} {P : ℝ} (hP : 0 < P)
    {ρ : Pt → ℝ} (hρ : ∀ x, Place m x → 0 < ρ x) {u : Fin m.count → Coeff 5 n}
    (hu : ∀ p x, gas m p (u p) x = carried γ v P (ρ x)) (p : Fin m.count) (r : Fin 5) (i : Fin (n + 1)) :
    inside ((m.grid γ).cell p (u p)) r i =
      part v r * ∑ k, v k * integrate (fun x => ρ x * gradient m p x i k) (m.basis p).rule +
        ∑ k, fixed γ v P k r * integrate (fun x => gradient m p x i k) (m.basis p).rule := by
  have hv : ((m.grid γ).cell p (u p)).volume = (m.basis p).rule.map fun xw =>
      ⟨fun r k => val (fluxMatrix γ (gas m p (u p) xw.1) k) r, xw.2, fun k i => gradient m p xw.1 i k⟩ := rfl
  rw [← integrate_sum, ← integrate_sum]
  have := integrate_add (m.basis p).rule (part v r) 1 (fun x => ∑ k, v k * (ρ x * gradient m p x i k))
    (fun x => ∑ k, fixed γ v P k r * gradient m p x i k)
  rw [one_mul] at this
  rw [← this]
  simp only [inside, hv, integrate_eq, List.map_map]
  refine congrArg List.sum (List.map_congr_left fun xw hx => ?_)
  simp only [Function.comp_apply, hu]
  have e : ∀ k, val (fluxMatrix γ (carried γ v P (ρ xw.1)) k) r = part v r * (v k * ρ xw.1) + fixed γ v P k r :=
    fun k => carried_flux hγ v hP (hρ _ (.cell hx)) k r
  simp only [e, Fin.sum_univ_three]
  ring

/-- The rates of the wave: the density falls at the rate `s` wherever it is moved up the slope. -/
theorem rates_wave (hγ : 1 < γ) (hr : Regular m c) (hs : Consistent m γ) {v : Fin 3 → ℝ} {P : ℝ} (hP : 0 < P)
    {ρ s : Pt → ℝ} (hρ : ∀ x, Place m x → 0 < ρ x) {u : Fin m.count → Coeff 5 n}
    (hu : ∀ p x, gas m p (u p) x = carried γ v P (ρ x)) {U : Pt → ℝ → Tup 2} (hc : Fits m v c U) (t : ℝ)
    (hU : ∀ x, U x t = carried γ v P (ρ x)) {S : Fin m.count → Fin (n + 1) → ℝ} (hS : ∀ p x, profile m p (S p) x = s x)
    (hd : Derivative m v ρ s) (p : Fin m.count) (r : Fin 5) (i : Fin (n + 1)) :
    m.rates γ c t u p r i = -(part v r * S p i) := by
  have hk : Known m c := by
    intro job hj
    refine hr.known _ ?_
    have hn : names c = (jobs c 0).map Prod.fst := by simp [names, jobs, Function.comp_def]
    rw [hn]
    exact List.mem_map_of_mem hj
  obtain ⟨R, hR, hRs⟩ := hd
  rw [Turn.rates_form hk (fun h0 p xw _ i k => hr.flat h0 p _ i k) t u p r i, inside_wave hγ hP hρ hu,
    local_wave hγ hr hs hP hρ hu p r (fun x => basisValues (m.basis p) x i),
    boundaries_wave hγ hr hP hρ hu hc t hU p r (fun x => basisValues (m.basis p) x i)]
  have hsurf : (m.faces.map fun f =>
        (if f.1 = p then face f.2.2 (fun q => through γ v P (ρ q.coord) r (q.frame 0) * basisValues (m.basis p) q.coord i)
          else 0) -
        (if f.2.1 = p then face f.2.2 (fun q => through γ v P (ρ q.coord) r (q.frame 0) *
          basisValues (m.basis p) q.coord i) else 0)).sum +
      ((names c).map (rim m p fun q => through γ v P (ρ q.coord) r (q.frame 0) * basisValues (m.basis p) q.coord i)).sum =
      part v r * (∑ k, v k * surface m c p fun q => q.frame 0 k * (ρ q.coord * basisValues (m.basis p) q.coord i)) +
        ∑ k, fixed γ v P k r * surface m c p fun q => q.frame 0 k * basisValues (m.basis p) q.coord i := by
    rw [← surface_sum, ← surface_sum]
    have := surface_add m c p (part v r) 1
      (fun q => ∑ k, v k * (q.frame 0 k * (ρ q.coord * basisValues (m.basis p) q.coord i)))
      (fun q => ∑ k, fixed γ v P k r * (q.frame 0 k * basisValues (m.basis p) q.coord i))
    rw [one_mul] at this
    rw [← this]
    show surface m c p _ = _
    refine congrArg (surface m c p) (_root_.funext fun q => ?_)
    simp only [through, Fin.sum_univ_three]
    ring
  rw [sub_sub, hsurf]
  have e1 : ∀ k, integrate (fun x => ρ x * gradient m p x i k) (m.basis p).rule =
      surface m c p (fun q => q.frame 0 k * (ρ q.coord * basisValues (m.basis p) q.coord i)) -
        integrate (fun x => basisValues (m.basis p) x i * Spec.Carry.slope m p (R p) x k) (m.basis p).rule := by
    intro k
    have := by_parts hr p (R p) i k
    simp only [hR] at this
    exact this
  have e2 : ∑ k, v k * integrate (fun x => basisValues (m.basis p) x i * Spec.Carry.slope m p (R p) x k)
      (m.basis p).rule = S p i := by
    rw [← integrate_sum, ← integrate_profile hr p (S p) i]
    refine integrate_congr fun xw hx => ?_
    rw [hS, ← hRs p xw hx, Finset.mul_sum]
    exact Finset.sum_congr rfl fun k _ => by ring
  simp only [e1, hr.single, mul_sub, Finset.sum_sub_distrib, e2]
  ring

/-! ### Steps -/

/-- If rates are the same all along a straight line, steps stay on the line. -/
theorem update_line {V : Type*} [AddCommGroup V] [Module ℝ V] (k : Stepper) (R : ℝ → V → V) (t dt : ℝ) (s : Sys ℝ V)
    (w : V) (h0 : R t s.sol = w) (h1 : R (t + dt) (s.sol + dt • w) = w)
    (h2 : R (t + dt / 2) (s.sol + (dt / 2) • w) = w) :
    (RK.update k R t dt s).sol = s.sol + dt • w := by
  cases k with
  | rk1 =>
    simp only [RK.update, update1, eulerUpdate, nextSolution, Sys.setTime, Sys.setSol, Sys.residual, h0]
  | rk2 =>
    simp only [RK.update, update2, eulerUpdate, nextSolution, Sys.setTime, Sys.setSol, Sys.residual, h0, h1]
    match_scalars <;> ring
  | rk3 =>
    have e : (4 : ℝ)⁻¹ • ((3 : ℝ) • s.sol + (s.sol + dt • w + dt • w)) = s.sol + (dt / 2) • w := by
      match_scalars <;> ring
    simp only [RK.update, update3, eulerUpdate, nextSolution, Sys.setTime, Sys.setSol, Sys.residual, h0, h1]
    rw [e, h2]
    match_scalars <;> ring

end MiniCFD.Carry
