import Verif.Lemmas.UnitsFlux
import Verif.Lemmas.Turn

/-! The weak form on a mesh in old and in new units. -/

namespace MiniCFD.Units

open MiniCFD.Spec.Units MiniCFD.Gas MiniCFD.Residual MiniCFD.Projection MiniCFD.Ortho MiniCFD.Euler MiniCFD.Spec.Euler
open MiniCFD.Spec.WeakForm MiniCFD.Parallel
open MiniCFD.Spec.Turn (gas gradient Known OrthonormalBasis)
open MiniCFD.Turn (val_tup jobs_names rates_form)

variable {Pt Pt' : Type} {n : Nat}

/-! ### Components -/

/-- The factors of the five components. -/
def factor (k : Units) : Fin 5 → ℝ :=
  ![k.density, k.density * k.velocity, k.density * k.velocity, k.density * k.velocity, k.density * k.velocity ^ 2]

theorem val_state (k : Units) (s : Tup 2) (r : Fin 5) : val (k.state s) r = factor k r * val s r := by
  fin_cases r <;> rfl

theorem val_flux (k : Units) (s : Tup 2) (r : Fin 5) : val (k.flux s) r = k.velocity * factor k r * val s r := by
  fin_cases r
  · show k.density * k.velocity * s.mass = k.velocity * k.density * s.mass
    ring
  · show k.density * k.velocity ^ 2 * s.mom 0 = k.velocity * (k.density * k.velocity) * s.mom 0
    ring
  · show k.density * k.velocity ^ 2 * s.mom 1 = k.velocity * (k.density * k.velocity) * s.mom 1
    ring
  · show k.density * k.velocity ^ 2 * s.mom 2 = k.velocity * (k.density * k.velocity) * s.mom 2
    ring
  · show k.density * k.velocity ^ 3 * s.energy = k.velocity * (k.density * k.velocity ^ 2) * s.energy
    ring

theorem state_value {k : Units} {v v' : Value 5} (h : tup v' = k.state (tup v)) (r : Fin 5) :
    v' r = factor k r * v r := by
  have := congrFun (congrArg val h) r
  rwa [val_tup, val_state, val_tup] at this

theorem flux_value {k : Units} {v v' : Value 5} (h : tup v' = k.flux (tup v)) (r : Fin 5) :
    v' r = k.velocity * factor k r * v r := by
  have := congrFun (congrArg val h) r
  rwa [val_tup, val_flux, val_tup] at this

theorem tup_of_value {k : Units} {v v' : Value 5} (h : ∀ r, v' r = factor k r * v r) : tup v' = k.state (tup v) := by
  have e : v' = val (k.state (tup v)) := by
    funext r
    rw [val_state, val_tup, h]
  rw [e, tup_val]

/-! ### Combinations of test functions -/

/-- A combination with coefficients `A` of test functions, times `K`. -/
noncomputable def comb (K : ℝ) (A : Fin (n + 1) → ℝ) (g : Fin (n + 1) → ℝ) : ℝ := K * ∑ j, A j * g j

section

variable (K : ℝ) (A : Fin (n + 1) → ℝ)

theorem comb_zero : comb K A (fun _ => 0) = 0 := by simp [comb]

theorem comb_add (g h : Fin (n + 1) → ℝ) : comb K A (fun j => g j + h j) = comb K A g + comb K A h := by
  simp only [comb, mul_add, Finset.sum_add_distrib]

theorem comb_sub (g h : Fin (n + 1) → ℝ) : comb K A (fun j => g j - h j) = comb K A g - comb K A h := by
  simp only [comb, mul_sub, Finset.sum_sub_distrib]

theorem comb_ite (b : Prop) [Decidable b] (g : Fin (n + 1) → ℝ) :
    comb K A (fun j => if b then g j else 0) = if b then comb K A g else 0 := by
  by_cases h : b <;> simp [h, comb]

theorem comb_list {α β : Type*} {R : α → β → Prop} {l : List α} {l' : List β} (h : List.Forall₂ R l l')
    {g : Fin (n + 1) → α → ℝ} {g' : β → ℝ} (hg : ∀ a b, R a b → g' b = comb K A fun j => g j a) :
    (l'.map g').sum = comb K A fun j => (l.map (g j)).sum := by
  induction h with
  | nil => simp [comb]
  | cons hab _ ih => simp only [List.map_cons, List.sum_cons, comb_add, ih, hg _ _ hab]

end

/-! ### Faces -/

variable {k : Units} {φ : Pt → Pt'} {γ : ℝ}

/-- The factor of a residual against a test function: areas, velocities and the component. -/
noncomputable def big (k : Units) (r : Fin 5) : ℝ := k.length ^ 2 * k.velocity * factor k r

theorem over_units (A : Fin (n + 1) → ℝ) (r : Fin 5) {l : List (Site Pt)} {l' : List (Site Pt')}
    (h : List.Forall₂ (Same k φ) l l') {flux : FacePoint Pt 5 → Value 5} {flux' : FacePoint Pt' 5 → Value 5}
    {test : Fin (n + 1) → FacePoint Pt 5 → ℝ} {test' : FacePoint Pt' 5 → ℝ}
    (hf : ∀ q q', Same k φ q q' → tup (flux' (q'.face γ)) = k.flux (tup (flux (q.face γ))))
    (ht : ∀ q q', Same k φ q q' → test' (q'.face γ) = ∑ j, A j * test j (q.face γ)) :
    over (l'.map (Site.face γ)) flux' test' r =
      comb (big k r) A fun j => over (l.map (Site.face γ)) flux (test j) r := by
  simp only [over, List.map_map]
  refine comb_list (big k r) A h fun q q' hq => ?_
  simp only [Function.comp_apply]
  have e : (q'.face γ).weight = k.length ^ 2 * (q.face γ).weight := hq.weight
  rw [e, flux_value (hf q q' hq), ht q q' hq]
  unfold comb big
  rw [Finset.mul_sum, Finset.mul_sum]
  exact Finset.sum_congr rfl fun j _ => by ring

variable {m : Mesh Pt n} {m' : Mesh Pt' n} {e : Fin m.count → Fin m'.count}
  {u : Fin m.count → Coeff 5 n} {u' : Fin m'.count → Coeff 5 n}

/-- The state read at a point and at its image. -/
theorem trace_units (hu : Follows k φ m m' e u u') (p : Fin m.count) {q : Site Pt} {q' : Site Pt'} (hq : Same k φ q q') :
    tup (((m'.grid γ).cell (e p) (u' (e p))).value (q'.face γ).coord) =
      k.state (tup (((m.grid γ).cell p (u p)).value (q.face γ).coord)) := by
  have : (q'.face γ).coord = φ (q.face γ).coord := hq.coord
  rw [this]
  exact hu p _

theorem local_units (hi : Redrawn k φ m m' e) (hu : Follows k φ m m' e u u') (hw : Weighs k m u) (p : Fin m.count) (r : Fin 5)
    (A : Fin (n + 1) → ℝ) {test : Fin (n + 1) → FacePoint Pt 5 → ℝ} {test' : FacePoint Pt' 5 → ℝ}
    (ht : ∀ q q', Same k φ q q' → test' (q'.face γ) = ∑ j, A j * test j (q.face γ)) :
    outLocal (fun c q => c.value q.coord) ((m'.grid γ).part u') (e p) test' r =
      comb (big k r) A fun j => outLocal (fun c q => c.value q.coord) ((m.grid γ).part u) p (test j) r := by
  have hl : ((m.grid γ).part u).localFaces = m.faces.map fun f => ⟨f.1, f.2.1, f.2.2.map (Site.face γ)⟩ := rfl
  have hl' : ((m'.grid γ).part u').localFaces = m'.faces.map fun f => ⟨f.1, f.2.1, f.2.2.map (Site.face γ)⟩ := rfl
  simp only [outLocal, hl, hl', List.map_map]
  refine comb_list (big k r) A hi.faces fun f f' hf => ?_
  obtain ⟨h1, h2, h3⟩ := hf
  obtain ⟨a', b', pts'⟩ := f'
  dsimp only at h1 h2 h3
  subst h1 h2
  simp only [Function.comp_apply]
  have ov := over_units (γ := γ) A r h3
    (flux := fun q => q.riemann.upwind (((m.grid γ).cell f.1 (u f.1)).value q.coord)
      (((m.grid γ).cell f.2.1 (u f.2.1)).value q.coord))
    (flux' := fun q => q.riemann.upwind (((m'.grid γ).cell (e f.1) (u' (e f.1))).value q.coord)
      (((m'.grid γ).cell (e f.2.1) (u' (e f.2.1))).value q.coord))
    (fun q q' hq => by
      show tup (val (q'.solver _ _)) = k.flux (tup (val (q.solver _ _)))
      refine Eq.trans ?_ ((hq.solver _ _ (hw f.1 _) (hw f.2.1 _)).trans (congrArg k.flux (tup_val _).symm))
      rw [tup_val]
      exact congrArg₂ q'.solver (trace_units hu f.1 hq) (trace_units hu f.2.1 hq)) ht
  have half : ∀ a : Fin m.count, (if e a = e p then over (pts'.map (Site.face γ)) (fun q =>
      q.riemann.upwind (((m'.grid γ).cell (e f.1) (u' (e f.1))).value q.coord)
      (((m'.grid γ).cell (e f.2.1) (u' (e f.2.1))).value q.coord)) test' r else 0) =
      comb (big k r) A fun j => if a = p then over (f.2.2.map (Site.face γ)) (fun q =>
      q.riemann.upwind (((m.grid γ).cell f.1 (u f.1)).value q.coord)
      (((m.grid γ).cell f.2.1 (u f.2.1)).value q.coord)) (test j) r else 0 := by
    intro a
    rw [comb_ite, ov]
    simp only [hi.bijective.1.eq_iff]
  rw [comb_sub]
  exact congrArg₂ (· - ·) (half f.1) (half f.2.1)

theorem boundary_units (hi : Redrawn k φ m m' e) (hu : Follows k φ m m' e u u') (hw : Weighs k m u) (p : Fin m.count) (r : Fin 5)
    (A : Fin (n + 1) → ℝ) {test : Fin (n + 1) → FacePoint Pt 5 → ℝ} {test' : FacePoint Pt' 5 → ℝ}
    (ht : ∀ q q', Same k φ q q' → test' (q'.face γ) = ∑ j, A j * test j (q.face γ)) (name : String)
    {flux : FacePoint Pt 5 → Value 5 → Value 5} {flux' : FacePoint Pt' 5 → Value 5 → Value 5}
    (hf : ∀ q q', Same k φ q q' → ∀ v v', Fine k (tup v) → tup v' = k.state (tup v) →
      tup (flux' (q'.face γ) v') = k.flux (tup (flux (q.face γ) v))) :
    outBoundary (fun c q => c.value q.coord) ((m'.grid γ).part u') (e p) test' r name flux' =
      comb (big k r) A fun j =>
        outBoundary (fun c q => c.value q.coord) ((m.grid γ).part u) p (test j) r name flux := by
  have hb : ((m.grid γ).part u).boundary name =
      (m.boundary name).map fun l => l.map fun f => ⟨f.1, f.2.map (Site.face γ)⟩ := rfl
  have hb' : ((m'.grid γ).part u').boundary name =
      (m'.boundary name).map fun l => l.map fun f => ⟨f.1, f.2.map (Site.face γ)⟩ := rfl
  have hr := hi.rims name
  simp only [outBoundary, hb, hb']
  revert hr
  generalize m.boundary name = o
  generalize m'.boundary name = o'
  intro hr
  match o, o', hr with
  | none, none, _ => exact (comb_zero (big k r) A).symm
  | some l, some l', hr =>
    simp only [Option.map_some, List.map_map]
    refine comb_list (big k r) A (show List.Forall₂ _ l l' from hr) fun f f' hff => ?_
    obtain ⟨h1, h3⟩ := hff
    obtain ⟨a', pts'⟩ := f'
    dsimp only at h1 h3
    subst h1
    simp only [Function.comp_apply]
    have ov := over_units (γ := γ) A r h3
      (flux := fun q => flux q (((m.grid γ).cell f.1 (u f.1)).value q.coord))
      (flux' := fun q => flux' q (((m'.grid γ).cell (e f.1) (u' (e f.1))).value q.coord))
      (fun q q' hq => hf q q' hq _ _ (hw f.1 _) (trace_units hu f.1 hq)) ht
    have half : (if e f.1 = e p then over (pts'.map (Site.face γ)) (fun q =>
        flux' q (((m'.grid γ).cell (e f.1) (u' (e f.1))).value q.coord)) test' r else 0) =
        comb (big k r) A fun j => if f.1 = p then over (f.2.map (Site.face γ)) (fun q =>
        flux q (((m.grid γ).cell f.1 (u f.1)).value q.coord)) (test j) r else 0 := by
      rw [comb_ite, ov]
      simp only [hi.bijective.1.eq_iff]
    exact half
  | none, some _, hr => exact hr.elim
  | some _, none, hr => exact hr.elim

theorem boundaries_units {c : Conditions Pt 5} {c' : Conditions Pt' 5} (hi : Redrawn k φ m m' e) (hc : Likewise k φ c c')
    (hu : Follows k φ m m' e u u') (hw : Weighs k m u) (t : ℝ) (p : Fin m.count) (r : Fin 5)
    (A : Fin (n + 1) → ℝ) {test : Fin (n + 1) → FacePoint Pt 5 → ℝ} {test' : FacePoint Pt' 5 → ℝ}
    (ht : ∀ q q', Same k φ q q' → test' (q'.face γ) = ∑ j, A j * test j (q.face γ)) :
    outBoundaries (fun c q => c.value q.coord) ((m'.grid γ).part u') c' (k.time * t) (e p) test' r =
      comb (big k r) A fun j =>
        outBoundaries (fun c q => c.value q.coord) ((m.grid γ).part u) c t p (test j) r := by
  have refl : ∀ l : List String, List.Forall₂ (fun a b => b = a) l l := by
    intro l
    induction l with
    | nil => exact .nil
    | cons a l ih => exact .cons rfl ih
  have at' : ∀ {f : String × Func Pt 5} {f' : String × Func Pt' 5}, Funcs k φ f f' → ∀ {q : Site Pt} {q' : Site Pt'},
      Same k φ q q' → tup (f'.2 (q'.face γ).coord (k.time * t)) = k.state (tup (f.2 (q.face γ).coord t)) := by
    intro f f' hff q q' hq
    have : (q'.face γ).coord = φ (q.face γ).coord := hq.coord
    rw [this]
    exact (hff.2 _ t).2
  simp only [outBoundaries, comb_add]
  refine congrArg₂ (· + ·) (congrArg₂ (· + ·) (congrArg₂ (· + ·) (congrArg₂ (· + ·) (congrArg₂ (· + ·) ?_ ?_) ?_) ?_) ?_) ?_
  · rw [hc.solidWall]
    refine comb_list (big k r) A (refl _) fun name name' hn => ?_
    subst hn
    refine boundary_units (γ := γ) hi hu hw p r A ht _ fun q q' hq v v' hF hv => ?_
    show tup (val (solidWall γ q'.frame (tup v'))) = k.flux (tup (val (solidWall γ q.frame (tup v))))
    rw [tup_val, tup_val, hv, hq.frame, solidWall_state k γ q.frame hF]
  · rw [hc.supersonicOutlet]
    refine comb_list (big k r) A (refl _) fun name name' hn => ?_
    subst hn
    refine boundary_units (γ := γ) hi hu hw p r A ht _ fun q q' hq v v' hF hv => ?_
    show tup (val (supersonicOutlet γ q'.frame (tup v'))) = k.flux (tup (val (supersonicOutlet γ q.frame (tup v))))
    rw [tup_val, tup_val, hv, hq.frame]
    exact supersonic_state k γ q.frame hF
  · refine comb_list (big k r) A hc.supersonicInlet fun f f' hff => ?_
    rw [hff.1]
    refine boundary_units (γ := γ) hi hu hw p r A ht _ fun q q' hq v v' hF hv => ?_
    show tup (val (supersonicInlet γ q'.frame (tup (f'.2 (q'.face γ).coord (k.time * t))))) =
      k.flux (tup (val (supersonicInlet γ q.frame (tup (f.2 (q.face γ).coord t)))))
    rw [tup_val, tup_val, at' hff hq, hq.frame, supersonic_state k γ q.frame (hff.2 _ t).1]
  · refine comb_list (big k r) A hc.subsonicInlet fun f f' hff => ?_
    rw [hff.1]
    refine boundary_units (γ := γ) hi hu hw p r A ht _ fun q q' hq v v' hF hv => ?_
    show tup (val (subsonicInlet γ q'.frame (tup v') (tup (f'.2 (q'.face γ).coord (k.time * t))))) =
      k.flux (tup (val (subsonicInlet γ q.frame (tup v) (tup (f.2 (q.face γ).coord t)))))
    rw [tup_val, tup_val, hv, at' hff hq, hq.frame, subsonicInlet_state k γ q.frame hF (hff.2 _ t).1]
  · refine comb_list (big k r) A hc.subsonicOutlet fun f f' hff => ?_
    rw [hff.1]
    refine boundary_units (γ := γ) hi hu hw p r A ht _ fun q q' hq v v' hF hv => ?_
    show tup (val (subsonicOutlet γ q'.frame (tup v') (tup (f'.2 (q'.face γ).coord (k.time * t))))) =
      k.flux (tup (val (subsonicOutlet γ q.frame (tup v) (tup (f.2 (q.face γ).coord t)))))
    rw [tup_val, tup_val, hv, at' hff hq, hq.frame, subsonicOutlet_state k γ q.frame hF (hff.2 _ t).1]
  · refine comb_list (big k r) A hc.smart fun f f' hff => ?_
    rw [hff.1]
    refine boundary_units (γ := γ) hi hu hw p r A ht _ fun q q' hq v v' hF hv => ?_
    show tup (val (smartBoundary γ q'.frame (tup v') (tup (f'.2 (q'.face γ).coord (k.time * t))))) =
      k.flux (tup (val (smartBoundary γ q.frame (tup v) (tup (f.2 (q.face γ).coord t)))))
    rw [tup_val, tup_val, hv, at' hff hq, hq.frame, smart_state k γ q.frame hF (hff.2 _ t).1]

/-! ### Inside of cells -/

theorem inside_units (hi : Redrawn k φ m m' e) (hu : Follows k φ m m' e u u') (hw : Weighs k m u) (p : Fin m.count)
    (r : Fin 5) {A : Fin (n + 1) → ℝ} {i : Fin (n + 1)}
    (hg : ∀ x c, k.length * gradient m' (e p) (φ x) i c = ∑ j, A j * gradient m p x j c) :
    inside ((m'.grid γ).cell (e p) (u' (e p))) r i =
      comb (big k r) A fun j => inside ((m.grid γ).cell p (u p)) r j := by
  have hv : ((m.grid γ).cell p (u p)).volume = (m.basis p).rule.map fun xw =>
      ⟨fun r k => val (fluxMatrix γ (gas m p (u p) xw.1) k) r, xw.2, fun k i => gradient m p xw.1 i k⟩ := rfl
  have hv' : ((m'.grid γ).cell (e p) (u' (e p))).volume = (m'.basis (e p)).rule.map fun xw =>
      ⟨fun r k => val (fluxMatrix γ (gas m' (e p) (u' (e p)) xw.1) k) r, xw.2,
        fun k i => gradient m' (e p) xw.1 i k⟩ := rfl
  simp only [inside, hv, hv', hi.rule, List.map_map]
  have refl : ∀ l : List (Pt × ℝ), List.Forall₂ (fun a b => b = a) l l := by
    intro l
    induction l with
    | nil => exact .nil
    | cons a l ih => exact .cons rfl ih
  refine comb_list (big k r) A (refl _) fun xw xw' h => ?_
  subst h
  simp only [Function.comp_apply, hu p xw'.1]
  have ef : ∀ c, val (fluxMatrix γ (k.state (gas m p (u p) xw'.1)) c) r =
      k.velocity * factor k r * val (fluxMatrix γ (gas m p (u p) xw'.1) c) r := by
    intro c
    rw [fluxMatrix_state k γ (hw p _), val_flux]
  generalize hG : (fun c => val (fluxMatrix γ (gas m p (u p) xw'.1) c) r) = G at ef
  have hG' : ∀ c, val (fluxMatrix γ (gas m p (u p) xw'.1) c) r = G c := fun c => congrFun hG c
  simp only [ef, hG']
  have e1 : ∀ c, G c * (k.length * gradient m' (e p) (φ xw'.1) i c) =
      ∑ j, A j * (G c * gradient m p xw'.1 j c) := by
    intro c
    rw [hg, Finset.mul_sum]
    exact Finset.sum_congr rfl fun j _ => by ring
  have e2 : ∑ j, A j * (xw'.2 * ∑ c, G c * gradient m p xw'.1 j c) =
      xw'.2 * ∑ c, G c * (k.length * gradient m' (e p) (φ xw'.1) i c) := by
    simp only [e1]
    rw [Finset.sum_comm, Finset.mul_sum]
    refine Finset.sum_congr rfl fun j _ => ?_
    rw [← Finset.mul_sum]
    ring
  unfold comb big
  refine Eq.trans ?_ (congrArg _ e2.symm)
  simp only [Finset.mul_sum]
  exact Finset.sum_congr rfl fun c _ => by ring

/-! ### Rates -/

/-- Gradients vanish in new units, too. -/
theorem flat_units (hi : Redrawn k φ m m' e) :
    n = 0 → ∀ p, ∀ xw ∈ (m'.basis p).rule, ∀ i c, gradient m' p xw.1 i c = 0 := by
  intro h0 p xw hx i c
  obtain ⟨p, rfl⟩ := hi.bijective.2 p
  rw [hi.rule] at hx
  obtain ⟨yw, _, rfl⟩ := List.mem_map.1 hx
  obtain ⟨M, _, hM⟩ := hi.span p
  have := hM yw.1 i c
  simp only [hi.flat h0, mul_zero, Finset.sum_const_zero] at this
  exact (mul_eq_zero.1 this).resolve_left k.length_pos.ne'

theorem rims_known {N N' : Nat} {e : Fin N → Fin N'} {o : Option (List (Fin N × List (Site Pt)))}
    {o' : Option (List (Fin N' × List (Site Pt')))} (h : Rims k φ e o o') (ho : o ≠ none) : o' ≠ none := by
  match o, o', h with
  | some _, some _, _ => exact Option.some_ne_none _
  | none, none, _ => exact absurd rfl ho
  | none, some _, h => exact h.elim
  | some _, none, h => exact h.elim

theorem names_of {l : List (String × Func Pt 5)} {l' : List (String × Func Pt' 5)} (h : List.Forall₂ (Funcs k φ) l l') :
    l'.map Prod.fst = l.map Prod.fst := by
  induction h with
  | nil => rfl
  | cons h _ ih => simp only [List.map_cons, ih, h.1]

theorem known_units {c : Conditions Pt 5} {c' : Conditions Pt' 5} (hi : Redrawn k φ m m' e) (hc : Likewise k φ c c')
    (hk : Known m c) : Known m' c' := by
  have en : (jobs c' 0).map Prod.fst = (jobs c 0).map Prod.fst := by
    rw [jobs_names, jobs_names, hc.solidWall, hc.supersonicOutlet, names_of hc.supersonicInlet,
      names_of hc.subsonicInlet, names_of hc.subsonicOutlet, names_of hc.smart]
  intro job hj
  have h1 : job.1 ∈ (jobs c 0).map Prod.fst := en ▸ List.mem_map_of_mem hj
  obtain ⟨job0, h0, e0⟩ := List.mem_map.1 h1
  have := hk job0 h0
  rw [e0] at this
  exact rims_known (hi.rims job.1) this

theorem rates_units {c : Conditions Pt 5} {c' : Conditions Pt' 5} (hi : Redrawn k φ m m' e) (hc : Likewise k φ c c')
    (hk : Known m c) (hu : Follows k φ m m' e u u') (hw : Weighs k m u) (t : ℝ) (p : Fin m.count) (r : Fin 5)
    {A : Fin (n + 1) → ℝ} {i : Fin (n + 1)}
    (hb : ∀ x, basisValues (m'.basis (e p)) (φ x) i = ∑ j, A j * basisValues (m.basis p) x j)
    (hg : ∀ x c, k.length * gradient m' (e p) (φ x) i c = ∑ j, A j * gradient m p x j c) :
    m'.rates γ c' (k.time * t) u' (e p) r i = comb (big k r) A fun j => m.rates γ c t u p r j := by
  have ht : ∀ q q', Same k φ q q' → basisValues (m'.basis (e p)) (q'.face γ).coord i =
      ∑ j, A j * basisValues (m.basis p) (q.face γ).coord j := by
    intro q q' hq
    have : (q'.face γ).coord = φ (q.face γ).coord := hq.coord
    rw [this, hb]
  rw [rates_form (known_units hi hc hk) (flat_units hi)]
  simp only [rates_form hk (fun h0 p xw _ => hi.flat h0 p xw.1), comb_sub]
  rw [inside_units hi hu hw p r hg, local_units hi hu hw p r A (test := fun j q => basisValues (m.basis p) q.coord j) ht,
    boundaries_units hi hc hu hw t p r A (test := fun j q => basisValues (m.basis p) q.coord j) ht]

/-- The matrix between two orthonormal bases. -/
theorem span_units (hi : Redrawn k φ m m' e) (p : Fin m.count) {M : Matrix (Fin (n + 1)) (Fin (n + 1)) ℝ}
    (hM : ∀ x i, basisValues (m'.basis (e p)) (φ x) i = ∑ j, M i j * basisValues (m.basis p) x j) :
    (k.length ^ 3 • M.transpose) * M = 1 := by
  rw [mul_eq_one_comm]
  ext i c
  rw [Matrix.mul_apply, Matrix.one_apply, ← hi.basis' (e p) i c, hi.rule]
  have h0 := hi.basis p
  rw [integrate_eq, List.map_map]
  simp only [Function.comp_def, hM]
  simp only [integrate_eq] at h0
  have e1 : ∀ l : List (Pt × ℝ), (l.map fun xw =>
      (∑ j, M i j * basisValues (m.basis p) xw.1 j) * (∑ j, M c j * basisValues (m.basis p) xw.1 j) *
        (k.length ^ 3 * xw.2)).sum =
      ∑ a, ∑ b, M i a * (k.length ^ 3 * M c b) *
        (l.map fun xw => basisValues (m.basis p) xw.1 a * basisValues (m.basis p) xw.1 b * xw.2).sum := by
    intro l
    induction l with
    | nil => simp
    | cons xw l ih =>
      simp only [List.map_cons, List.sum_cons, mul_add, Finset.sum_add_distrib, ih]
      congr 1
      rw [Finset.sum_mul_sum, Finset.sum_mul]
      refine Finset.sum_congr rfl fun a _ => ?_
      rw [Finset.sum_mul]
      exact Finset.sum_congr rfl fun b _ => by ring
  rw [e1]
  simp only [h0, mul_ite, mul_one, mul_zero, Finset.sum_ite_eq, Finset.mem_univ, if_true, Matrix.smul_apply,
    Matrix.transpose_apply, smul_eq_mul]

end MiniCFD.Units
