import Verif.Lemmas.TurnFlux
import Verif.Lemmas.Gas
import Verif.Props.Parallel

/-! The weak form on a mesh and on its image. -/

namespace MiniCFD.Turn

open MiniCFD.Spec.Turn MiniCFD.Gas MiniCFD.Residual MiniCFD.Projection MiniCFD.Ortho MiniCFD.Euler MiniCFD.Spec.Euler
open MiniCFD.Spec.WeakForm MiniCFD.Parallel

variable {Pt Pt' : Type} {n : Nat}

/-! ### Components -/

/-- What turning does to the five components. -/
def big (Q : Frame 2) : Fin 5 → Fin 5 → ℝ :=
  ![![1, 0, 0, 0, 0], ![0, Q 0 0, Q 0 1, Q 0 2, 0], ![0, Q 1 0, Q 1 1, Q 1 2, 0], ![0, Q 2 0, Q 2 1, Q 2 2, 0],
    ![0, 0, 0, 0, 1]]

theorem val_turn (Q : Frame 2) (s : Tup 2) (r : Fin 5) : val (turn Q s) r = ∑ q, big Q r q * val s q := by
  have h : ∀ g : Fin (2 + 1) → ℝ, ∑ i, g i = g 0 + g 1 + g 2 := fun g => Fin.sum_univ_three g
  rw [Fin.sum_univ_five]
  fin_cases r <;> simp [val, turn, big, h]

theorem val_tup (v : Value 5) : val (tup v) = v := by
  funext r
  fin_cases r <;> rfl

theorem turned_value {Q : Frame 2} {v v' : Value 5} (h : tup v' = turn Q (tup v)) (r : Fin 5) :
    v' r = ∑ q, big Q r q * v q := by
  have := congrFun (congrArg val h) r
  rwa [val_tup, val_turn, val_tup] at this

theorem tup_of_value {Q : Frame 2} {v v' : Value 5} (h : ∀ r, v' r = ∑ q, big Q r q * v q) :
    tup v' = turn Q (tup v) := by
  have e : v' = val (turn Q (tup v)) := by
    funext r
    rw [val_turn, val_tup, h]
  rw [e, tup_val]

/-! ### Combinations of test functions and components -/

/-- A combination with coefficients `A` of test functions and `B` of components. -/
noncomputable def comb (A : Fin (n + 1) → ℝ) (B : Fin 5 → ℝ) (g : Fin (n + 1) → Fin 5 → ℝ) : ℝ :=
  ∑ j, A j * ∑ s, B s * g j s

section

variable (A : Fin (n + 1) → ℝ) (B : Fin 5 → ℝ)

theorem comb_zero : comb A B (fun _ _ => 0) = 0 := by simp [comb]

theorem comb_add (g h : Fin (n + 1) → Fin 5 → ℝ) :
    comb A B (fun j s => g j s + h j s) = comb A B g + comb A B h := by
  simp only [comb, mul_add, Finset.sum_add_distrib]

theorem comb_sub (g h : Fin (n + 1) → Fin 5 → ℝ) :
    comb A B (fun j s => g j s - h j s) = comb A B g - comb A B h := by
  simp only [comb, mul_sub, Finset.sum_sub_distrib]

theorem comb_ite (b : Prop) [Decidable b] (g : Fin (n + 1) → Fin 5 → ℝ) :
    comb A B (fun j s => if b then g j s else 0) = if b then comb A B g else 0 := by
  by_cases h : b <;> simp [h, comb]

theorem comb_product (w : ℝ) (f : Fin 5 → ℝ) (t : Fin (n + 1) → ℝ) :
    comb A B (fun j s => w * f s * t j) = w * (∑ s, B s * f s) * ∑ j, A j * t j := by
  unfold comb
  rw [Finset.mul_sum]
  refine Finset.sum_congr rfl fun j _ => ?_
  rw [Finset.mul_sum, Finset.mul_sum, Finset.sum_mul]
  exact Finset.sum_congr rfl fun s _ => by ring

theorem comb_list {α β : Type*} {R : α → β → Prop} {l : List α} {l' : List β} (h : List.Forall₂ R l l')
    {g : Fin (n + 1) → Fin 5 → α → ℝ} {g' : β → ℝ} (hg : ∀ a b, R a b → g' b = comb A B fun j s => g j s a) :
    (l'.map g').sum = comb A B fun j s => (l.map (g j s)).sum := by
  induction h with
  | nil => simp [comb]
  | cons hab _ ih => simp only [List.map_cons, List.sum_cons, comb_add, ih, hg _ _ hab]

end

/-! ### Faces -/

variable {Q : Frame 2} {φ : Pt → Pt'} {γ : ℝ}

theorem over_turn (A : Fin (n + 1) → ℝ) (r : Fin 5) {l : List (Site Pt)} {l' : List (Site Pt')}
    (h : List.Forall₂ (Same Q φ) l l') {flux : FacePoint Pt 5 → Value 5} {flux' : FacePoint Pt' 5 → Value 5}
    {test : Fin (n + 1) → FacePoint Pt 5 → ℝ} {test' : FacePoint Pt' 5 → ℝ}
    (hf : ∀ q q', Same Q φ q q' → tup (flux' (q'.face γ)) = turn Q (tup (flux (q.face γ))))
    (ht : ∀ q q', Same Q φ q q' → test' (q'.face γ) = ∑ j, A j * test j (q.face γ)) :
    over (l'.map (Site.face γ)) flux' test' r =
      comb A (big Q r) fun j s => over (l.map (Site.face γ)) flux (test j) s := by
  simp only [over, List.map_map]
  refine comb_list A (big Q r) h fun q q' hq => ?_
  simp only [Function.comp_apply]
  have e : (q'.face γ).weight = (q.face γ).weight := hq.weight
  rw [comb_product, e, turned_value (hf q q' hq), ht q q' hq]

variable {m : Mesh Pt n} {m' : Mesh Pt' n} {e : Fin m.count → Fin m'.count}
  {u : Fin m.count → Coeff 5 n} {u' : Fin m'.count → Coeff 5 n}

/-- The state read at a point and at its image. -/
theorem trace_turn (hu : Follows Q φ m m' e u u') (p : Fin m.count) {q : Site Pt} {q' : Site Pt'} (hq : Same Q φ q q') :
    tup (((m'.grid γ).cell (e p) (u' (e p))).value (q'.face γ).coord) =
      turn Q (tup (((m.grid γ).cell p (u p)).value (q.face γ).coord)) := by
  have : (q'.face γ).coord = φ (q.face γ).coord := hq.coord
  rw [this]
  exact hu p _

theorem local_turn (hi : Image Q φ m m' e) (hu : Follows Q φ m m' e u u') (p : Fin m.count) (r : Fin 5)
    (A : Fin (n + 1) → ℝ) {test : Fin (n + 1) → FacePoint Pt 5 → ℝ} {test' : FacePoint Pt' 5 → ℝ}
    (ht : ∀ q q', Same Q φ q q' → test' (q'.face γ) = ∑ j, A j * test j (q.face γ)) :
    outLocal (fun c q => c.value q.coord) ((m'.grid γ).part u') (e p) test' r =
      comb A (big Q r) fun j s => outLocal (fun c q => c.value q.coord) ((m.grid γ).part u) p (test j) s := by
  have hl : ((m.grid γ).part u).localFaces = m.faces.map fun f => ⟨f.1, f.2.1, f.2.2.map (Site.face γ)⟩ := rfl
  have hl' : ((m'.grid γ).part u').localFaces = m'.faces.map fun f => ⟨f.1, f.2.1, f.2.2.map (Site.face γ)⟩ := rfl
  simp only [outLocal, hl, hl', List.map_map]
  refine comb_list A (big Q r) hi.faces fun f f' hf => ?_
  obtain ⟨h1, h2, h3⟩ := hf
  obtain ⟨a', b', pts'⟩ := f'
  dsimp only at h1 h2 h3
  subst h1 h2
  simp only [Function.comp_apply]
  have ov := over_turn (γ := γ) A r h3
    (flux := fun q => q.riemann.upwind (((m.grid γ).cell f.1 (u f.1)).value q.coord)
      (((m.grid γ).cell f.2.1 (u f.2.1)).value q.coord))
    (flux' := fun q => q.riemann.upwind (((m'.grid γ).cell (e f.1) (u' (e f.1))).value q.coord)
      (((m'.grid γ).cell (e f.2.1) (u' (e f.2.1))).value q.coord))
    (fun q q' hq => by
      show tup (val (q'.solver _ _)) = turn Q (tup (val (q.solver _ _)))
      rw [tup_val, tup_val, ← hq.solver]
      exact congrArg₂ q'.solver (trace_turn hu f.1 hq) (trace_turn hu f.2.1 hq)) ht
  have half : ∀ a : Fin m.count, (if e a = e p then over (pts'.map (Site.face γ)) (fun q =>
      q.riemann.upwind (((m'.grid γ).cell (e f.1) (u' (e f.1))).value q.coord)
      (((m'.grid γ).cell (e f.2.1) (u' (e f.2.1))).value q.coord)) test' r else 0) =
      comb A (big Q r) fun j s => if a = p then over (f.2.2.map (Site.face γ)) (fun q =>
      q.riemann.upwind (((m.grid γ).cell f.1 (u f.1)).value q.coord)
      (((m.grid γ).cell f.2.1 (u f.2.1)).value q.coord)) (test j) s else 0 := by
    intro a
    rw [comb_ite, ov]
    simp only [hi.bijective.1.eq_iff]
  rw [comb_sub]
  exact congrArg₂ (· - ·) (half f.1) (half f.2.1)

theorem boundary_turn (hi : Image Q φ m m' e) (hu : Follows Q φ m m' e u u') (p : Fin m.count) (r : Fin 5)
    (A : Fin (n + 1) → ℝ) {test : Fin (n + 1) → FacePoint Pt 5 → ℝ} {test' : FacePoint Pt' 5 → ℝ}
    (ht : ∀ q q', Same Q φ q q' → test' (q'.face γ) = ∑ j, A j * test j (q.face γ)) (name : String)
    {flux : FacePoint Pt 5 → Value 5 → Value 5} {flux' : FacePoint Pt' 5 → Value 5 → Value 5}
    (hf : ∀ q q', Same Q φ q q' → ∀ v v', tup v' = turn Q (tup v) →
      tup (flux' (q'.face γ) v') = turn Q (tup (flux (q.face γ) v))) :
    outBoundary (fun c q => c.value q.coord) ((m'.grid γ).part u') (e p) test' r name flux' =
      comb A (big Q r) fun j s =>
        outBoundary (fun c q => c.value q.coord) ((m.grid γ).part u) p (test j) s name flux := by
  have hb : ((m.grid γ).part u).boundary name =
      (m.boundary name).map fun l => l.map fun f => ⟨f.1, f.2.map (Site.face γ)⟩ := rfl
  have hb' : ((m'.grid γ).part u').boundary name =
      (m'.boundary name).map fun l => l.map fun f => ⟨f.1, f.2.map (Site.face γ)⟩ := rfl
  have hr := hi.rims name
  simp only [outBoundary, hb, hb']
  revert hr
  generalize m.boundary name = o
  generalize m'.boundary name = o'
  intro hr
  match o, o', hr with
  | none, none, _ => exact (comb_zero A (big Q r)).symm
  | some l, some l', hr =>
    simp only [Option.map_some, List.map_map]
    refine comb_list A (big Q r) (show List.Forall₂ _ l l' from hr) fun f f' hff => ?_
    obtain ⟨h1, h3⟩ := hff
    obtain ⟨a', pts'⟩ := f'
    dsimp only at h1 h3
    subst h1
    simp only [Function.comp_apply]
    have ov := over_turn (γ := γ) A r h3
      (flux := fun q => flux q (((m.grid γ).cell f.1 (u f.1)).value q.coord))
      (flux' := fun q => flux' q (((m'.grid γ).cell (e f.1) (u' (e f.1))).value q.coord))
      (fun q q' hq => hf q q' hq _ _ (trace_turn hu f.1 hq)) ht
    have half : (if e f.1 = e p then over (pts'.map (Site.face γ)) (fun q =>
        flux' q (((m'.grid γ).cell (e f.1) (u' (e f.1))).value q.coord)) test' r else 0) =
        comb A (big Q r) fun j s => if f.1 = p then over (f.2.map (Site.face γ)) (fun q =>
        flux q (((m.grid γ).cell f.1 (u f.1)).value q.coord)) (test j) s else 0 := by
      rw [comb_ite, ov]
      simp only [hi.bijective.1.eq_iff]
    exact half
  | none, some _, hr => exact hr.elim
  | some _, none, hr => exact hr.elim

theorem boundaries_turn {c : Conditions Pt 5} {c' : Conditions Pt' 5} (hi : Image Q φ m m' e) (hc : Likewise Q φ c c')
    (hu : Follows Q φ m m' e u u') (t : ℝ) (p : Fin m.count) (r : Fin 5)
    (A : Fin (n + 1) → ℝ) {test : Fin (n + 1) → FacePoint Pt 5 → ℝ} {test' : FacePoint Pt' 5 → ℝ}
    (ht : ∀ q q', Same Q φ q q' → test' (q'.face γ) = ∑ j, A j * test j (q.face γ)) :
    outBoundaries (fun c q => c.value q.coord) ((m'.grid γ).part u') c' t (e p) test' r =
      comb A (big Q r) fun j s =>
        outBoundaries (fun c q => c.value q.coord) ((m.grid γ).part u) c t p (test j) s := by
  have refl : ∀ l : List String, List.Forall₂ (fun a b => b = a) l l := by
    intro l
    induction l with
    | nil => exact .nil
    | cons a l ih => exact .cons rfl ih
  have at' : ∀ {f : String × Func Pt 5} {f' : String × Func Pt' 5}, Funcs Q φ f f' → ∀ {q : Site Pt} {q' : Site Pt'},
      Same Q φ q q' → tup (f'.2 (q'.face γ).coord t) = turn Q (tup (f.2 (q.face γ).coord t)) := by
    intro f f' hff q q' hq
    have : (q'.face γ).coord = φ (q.face γ).coord := hq.coord
    rw [this]
    exact hff.2 _ t
  simp only [outBoundaries, comb_add]
  refine congrArg₂ (· + ·) (congrArg₂ (· + ·) (congrArg₂ (· + ·) (congrArg₂ (· + ·) (congrArg₂ (· + ·) ?_ ?_) ?_) ?_) ?_) ?_
  · rw [hc.solidWall]
    refine comb_list A (big Q r) (refl _) fun name name' hn => ?_
    subst hn
    refine boundary_turn (γ := γ) hi hu p r A ht _ fun q q' hq v v' hv => ?_
    show tup (val (solidWall γ q'.frame (tup v'))) = turn Q (tup (val (solidWall γ q.frame (tup v))))
    rw [tup_val, tup_val, hv, solidWall_turn γ hq.frames hi.turn]
  · rw [hc.supersonicOutlet]
    refine comb_list A (big Q r) (refl _) fun name name' hn => ?_
    subst hn
    refine boundary_turn (γ := γ) hi hu p r A ht _ fun q q' hq v v' hv => ?_
    show tup (val (supersonicOutlet γ q'.frame (tup v'))) = turn Q (tup (val (supersonicOutlet γ q.frame (tup v))))
    rw [tup_val, tup_val, hv]
    exact supersonic_turn γ hq.frames hi.turn _
  · refine comb_list A (big Q r) hc.supersonicInlet fun f f' hff => ?_
    rw [hff.1]
    refine boundary_turn (γ := γ) hi hu p r A ht _ fun q q' hq v v' hv => ?_
    show tup (val (supersonicInlet γ q'.frame (tup (f'.2 (q'.face γ).coord t)))) =
      turn Q (tup (val (supersonicInlet γ q.frame (tup (f.2 (q.face γ).coord t)))))
    rw [tup_val, tup_val, at' hff hq, supersonic_turn γ hq.frames hi.turn]
  · refine comb_list A (big Q r) hc.subsonicInlet fun f f' hff => ?_
    rw [hff.1]
    refine boundary_turn (γ := γ) hi hu p r A ht _ fun q q' hq v v' hv => ?_
    show tup (val (subsonicInlet γ q'.frame (tup v') (tup (f'.2 (q'.face γ).coord t)))) =
      turn Q (tup (val (subsonicInlet γ q.frame (tup v) (tup (f.2 (q.face γ).coord t)))))
    rw [tup_val, tup_val, hv, at' hff hq, subsonicInlet_turn γ hq.frames hi.turn]
  · refine comb_list A (big Q r) hc.subsonicOutlet fun f f' hff => ?_
    rw [hff.1]
    refine boundary_turn (γ := γ) hi hu p r A ht _ fun q q' hq v v' hv => ?_
    show tup (val (subsonicOutlet γ q'.frame (tup v') (tup (f'.2 (q'.face γ).coord t)))) =
      turn Q (tup (val (subsonicOutlet γ q.frame (tup v) (tup (f.2 (q.face γ).coord t)))))
    rw [tup_val, tup_val, hv, at' hff hq, subsonicOutlet_turn γ hq.frames hi.turn]
  · refine comb_list A (big Q r) hc.smart fun f f' hff => ?_
    rw [hff.1]
    refine boundary_turn (γ := γ) hi hu p r A ht _ fun q q' hq v v' hv => ?_
    show tup (val (smartBoundary γ q'.frame (tup v') (tup (f'.2 (q'.face γ).coord t)))) =
      turn Q (tup (val (smartBoundary γ q.frame (tup v) (tup (f.2 (q.face γ).coord t)))))
    rw [tup_val, tup_val, hv, at' hff hq, smart_turn γ hq.frames hi.turn]

/-! ### Inside of cells -/

/-- A flux matrix against a gradient. -/
theorem contract_turn (h : Orthonormal Q) (c : Tup 2) (g : Fin 3 → ℝ) (r : Fin 5) :
    ∑ k, val (fluxMatrix γ (turn Q c) k) r * ∑ l, Q k l * g l =
      ∑ q, big Q r q * ∑ k, val (fluxMatrix γ c k) q * g k := by
  have e1 : ∀ k, val (fluxMatrix γ (turn Q c) k) r = ∑ l, Q k l * val (turn Q (fluxMatrix γ c l)) r := by
    intro k
    obtain ⟨h1, h2, h3⟩ := fluxMatrix_turn h γ c k
    fin_cases r
    · exact h1
    · exact h2 0
    · exact h2 1
    · exact h2 2
    · exact h3
  have e2 := dot_turn (d := 2) h (fun l => val (turn Q (fluxMatrix γ c l)) r) g
  simp only [e1]
  refine e2.trans ?_
  simp only [val_turn, Finset.sum_mul, Finset.mul_sum]
  rw [Finset.sum_comm]
  exact Finset.sum_congr rfl fun q _ => Finset.sum_congr rfl fun k _ => by ring

theorem inside_turn (hi : Image Q φ m m' e) (hu : Follows Q φ m m' e u u') (p : Fin m.count) (r : Fin 5)
    {A : Fin (n + 1) → ℝ} {i : Fin (n + 1)}
    (hg : ∀ x k, gradient m' (e p) (φ x) i k = ∑ j, A j * ∑ l, Q k l * gradient m p x j l) :
    inside ((m'.grid γ).cell (e p) (u' (e p))) r i =
      comb A (big Q r) fun j s => inside ((m.grid γ).cell p (u p)) s j := by
  have hv : ((m.grid γ).cell p (u p)).volume = (m.basis p).rule.map fun xw =>
      ⟨fun r k => val (fluxMatrix γ (gas m p (u p) xw.1) k) r, xw.2, fun k i => gradient m p xw.1 i k⟩ := rfl
  have hv' : ((m'.grid γ).cell (e p) (u' (e p))).volume = (m'.basis (e p)).rule.map fun xw =>
      ⟨fun r k => val (fluxMatrix γ (gas m' (e p) (u' (e p)) xw.1) k) r, xw.2,
        fun k i => gradient m' (e p) xw.1 i k⟩ := rfl
  simp only [inside, hv, hv', hi.rule, List.map_map]
  have refl : ∀ l : List (Pt × ℝ), List.Forall₂ (fun a b => b = a) l l := by
    intro l
    induction l with
    | nil => exact .nil
    | cons a l ih => exact .cons rfl ih
  refine comb_list A (big Q r) (refl _) fun xw xw' h => ?_
  subst h
  simp only [Function.comp_apply, hu p xw'.1, hg]
  have e1 : ∑ k, val (fluxMatrix γ (turn Q (gas m p (u p) xw'.1)) k) r *
      ∑ j, A j * ∑ l, Q k l * gradient m p xw'.1 j l =
      ∑ j, A j * ∑ k, val (fluxMatrix γ (turn Q (gas m p (u p) xw'.1)) k) r *
        ∑ l, Q k l * gradient m p xw'.1 j l := by
    simp only [Finset.mul_sum (s := (Finset.univ : Finset (Fin (n + 1)))), Finset.mul_sum (s := (Finset.univ : Finset (Fin 3)))]
    rw [Finset.sum_comm]
    refine Finset.sum_congr rfl fun j _ => Finset.sum_congr rfl fun k _ => Finset.sum_congr rfl fun l _ => by ring
  rw [e1, Finset.mul_sum]
  refine Finset.sum_congr rfl fun j _ => ?_
  rw [contract_turn hi.turn, Finset.mul_sum, Finset.mul_sum, Finset.mul_sum]
  exact Finset.sum_congr rfl fun s _ => by ring

/-! ### Rates -/

theorem known_all {c : Conditions Pt 5} (hk : Known m c) (t : ℝ) (u : Fin m.count → Coeff 5 n) :
    ∀ job ∈ jobs c t, ((m.grid γ).part u).boundary job.1 ≠ none := by
  have hb : ∀ name, ((m.grid γ).part u).boundary name =
      (m.boundary name).map fun l => l.map fun f => ⟨f.1, f.2.map (Site.face γ)⟩ := fun _ => rfl
  intro job hj
  obtain ⟨job0, h0, e0⟩ : ∃ job0 ∈ jobs c 0, job0.1 = job.1 := by
    simp only [jobs, List.mem_append, List.mem_map] at hj ⊢
    rcases hj with ((((⟨a, ha, rfl⟩ | ⟨a, ha, rfl⟩) | ⟨a, ha, rfl⟩) | ⟨a, ha, rfl⟩) | ⟨a, ha, rfl⟩) | ⟨a, ha, rfl⟩
    · exact ⟨_, .inl (.inl (.inl (.inl (.inl ⟨a, ha, rfl⟩)))), rfl⟩
    · exact ⟨_, .inl (.inl (.inl (.inl (.inr ⟨a, ha, rfl⟩)))), rfl⟩
    · exact ⟨_, .inl (.inl (.inl (.inr ⟨a, ha, rfl⟩))), rfl⟩
    · exact ⟨_, .inl (.inl (.inr ⟨a, ha, rfl⟩)), rfl⟩
    · exact ⟨_, .inl (.inr ⟨a, ha, rfl⟩), rfl⟩
    · exact ⟨_, .inr ⟨a, ha, rfl⟩, rfl⟩
  have := hk job0 h0
  rw [e0] at this
  rw [hb]
  simpa using this

/-- The rates as a weak form. -/
theorem rates_form {c : Conditions Pt 5} (hk : Known m c) 
    (hf : n = 0 → ∀ p, ∀ xw ∈ (m.basis p).rule, ∀ i k, gradient m p xw.1 i k = 0) (t : ℝ)
    (u : Fin m.count → Coeff 5 n) (p : Fin m.count) (r : Fin 5) (i : Fin (n + 1)) :
    m.rates γ c t u p r i = inside ((m.grid γ).cell p (u p)) r i -
      outLocal (fun c q => c.value q.coord) ((m.grid γ).part u) p (fun q => basisValues (m.basis p) q.coord i) r -
      outBoundaries (fun c q => c.value q.coord) ((m.grid γ).part u) c t p (fun q => basisValues (m.basis p) q.coord i) r := by
  have hv : ∀ p, (((m.grid γ).part u).cells p).volume = (m.basis p).rule.map fun xw =>
      ⟨fun r k => val (fluxMatrix γ (gas m p (u p) xw.1) k) r, xw.2, fun k i => gradient m p xw.1 i k⟩ := fun _ => rfl
  have h := (rates_weak (P := (m.grid γ).part u) (t := t) (known_all (γ := γ) hk t u) (fun h0 p v hv' k i => by
    rw [hv] at hv'
    obtain ⟨xw, hx, rfl⟩ := List.mem_map.1 hv'
    exact hf h0 p _ hx i k) p r i).2
  have hg : outGhost (fun c q => c.value q.coord) ((m.grid γ).part u) p
      (fun q => basisValues (m.basis p) q.coord i) r = 0 := by
    simp [outGhost, Grid.part]
  refine h.trans ?_
  unfold weakForm
  refine (congrArg₂ (· - ·) (congrArg₂ (· - ·) rfl hg) rfl).trans ?_
  rw [sub_zero]
  rfl

/-- Gradients vanish on the image, too. -/
theorem flat_image (hi : Image Q φ m m' e) :
    n = 0 → ∀ p, ∀ xw ∈ (m'.basis p).rule, ∀ i k, gradient m' p xw.1 i k = 0 := by
  intro h0 p xw hx i k
  obtain ⟨p, rfl⟩ := hi.bijective.2 p
  rw [hi.rule] at hx
  obtain ⟨yw, _, rfl⟩ := List.mem_map.1 hx
  obtain ⟨M, _, hM⟩ := hi.span p
  simp [hM, hi.flat h0]

theorem rims_known {N N' : Nat} {e : Fin N → Fin N'} {o : Option (List (Fin N × List (Site Pt)))}
    {o' : Option (List (Fin N' × List (Site Pt')))} (h : Rims Q φ e o o') (ho : o ≠ none) : o' ≠ none := by
  match o, o', h with
  | some _, some _, _ => exact Option.some_ne_none _
  | none, none, _ => exact absurd rfl ho
  | none, some _, h => exact h.elim
  | some _, none, h => exact h.elim

theorem names_of {l : List (String × Func Pt 5)} {l' : List (String × Func Pt' 5)} (h : List.Forall₂ (Funcs Q φ) l l') :
    l'.map Prod.fst = l.map Prod.fst := by
  induction h with
  | nil => rfl
  | cons h _ ih => simp only [List.map_cons, ih, h.1]

theorem jobs_names {Pt : Type} (c : Conditions Pt 5) : (jobs c 0).map Prod.fst = c.solidWall ++
    c.supersonicInlet.map Prod.fst ++ c.supersonicOutlet ++ c.subsonicInlet.map Prod.fst ++
    c.subsonicOutlet.map Prod.fst ++ c.smart.map Prod.fst := by
  simp [jobs, Function.comp_def]

theorem known_image {c : Conditions Pt 5} {c' : Conditions Pt' 5} (hi : Image Q φ m m' e) (hc : Likewise Q φ c c')
    (hk : Known m c) : Known m' c' := by
  have en : (jobs c' 0).map Prod.fst = (jobs c 0).map Prod.fst := by
    rw [jobs_names, jobs_names, hc.solidWall, hc.supersonicOutlet, names_of hc.supersonicInlet,
      names_of hc.subsonicInlet, names_of hc.subsonicOutlet, names_of hc.smart]
  intro job hj
  have h1 : job.1 ∈ (jobs c 0).map Prod.fst := en ▸ List.mem_map_of_mem hj
  obtain ⟨job0, h0, e0⟩ := List.mem_map.1 h1
  have := hk job0 h0
  rw [e0] at this
  exact rims_known (hi.rims job.1) this

theorem rates_turn {c : Conditions Pt 5} {c' : Conditions Pt' 5} (hi : Image Q φ m m' e) (hc : Likewise Q φ c c')
    (hk : Known m c) (hu : Follows Q φ m m' e u u') (t : ℝ) (p : Fin m.count) (r : Fin 5)
    {A : Fin (n + 1) → ℝ} {i : Fin (n + 1)}
    (hb : ∀ x, basisValues (m'.basis (e p)) (φ x) i = ∑ j, A j * basisValues (m.basis p) x j)
    (hg : ∀ x k, gradient m' (e p) (φ x) i k = ∑ j, A j * ∑ l, Q k l * gradient m p x j l) :
    m'.rates γ c' t u' (e p) r i = comb A (big Q r) fun j s => m.rates γ c t u p s j := by
  have ht : ∀ q q', Same Q φ q q' → basisValues (m'.basis (e p)) (q'.face γ).coord i =
      ∑ j, A j * basisValues (m.basis p) (q.face γ).coord j := by
    intro q q' hq
    have : (q'.face γ).coord = φ (q.face γ).coord := hq.coord
    rw [this, hb]
  rw [rates_form (known_image hi hc hk) (flat_image hi)]
  simp only [rates_form hk (fun h0 p xw _ => hi.flat h0 p xw.1), comb_sub]
  rw [inside_turn hi hu p r hg, local_turn hi hu p r A (test := fun j q => basisValues (m.basis p) q.coord j) ht,
    boundaries_turn hi hc hu t p r A (test := fun j q => basisValues (m.basis p) q.coord j) ht]

/-- The matrix between two orthonormal bases is orthogonal. -/
theorem span_orthogonal (hi : Image Q φ m m' e) (p : Fin m.count) {M : Matrix (Fin (n + 1)) (Fin (n + 1)) ℝ}
    (hM : ∀ x i, basisValues (m'.basis (e p)) (φ x) i = ∑ j, M i j * basisValues (m.basis p) x j) :
    M.transpose * M = 1 := by
  rw [mul_eq_one_comm]
  ext i k
  rw [Matrix.mul_apply, Matrix.one_apply, ← hi.basis' (e p) i k, hi.rule]
  have h0 := hi.basis p
  rw [integrate_eq, List.map_map]
  simp only [Function.comp_def, hM]
  simp only [integrate_eq] at h0
  have e1 : ∀ l : List (Pt × ℝ), (l.map fun xw =>
      (∑ j, M i j * basisValues (m.basis p) xw.1 j) * (∑ j, M k j * basisValues (m.basis p) xw.1 j) * xw.2).sum =
      ∑ a, ∑ b, M i a * M k b * (l.map fun xw => basisValues (m.basis p) xw.1 a * basisValues (m.basis p) xw.1 b * xw.2).sum := by
    intro l
    induction l with
    | nil => simp
    | cons xw l ih =>
      simp only [List.map_cons, List.sum_cons, mul_add, Finset.sum_add_distrib, ih]
      congr 1
      rw [Finset.sum_mul_sum, Finset.sum_mul]
      refine Finset.sum_congr rfl fun a _ => ?_
      rw [Finset.sum_mul]
      exact Finset.sum_congr rfl fun b _ => by ring
  rw [e1]
  simp only [h0, mul_ite, mul_one, mul_zero, Finset.sum_ite_eq, Finset.mem_univ, if_true, Matrix.transpose_apply]

end MiniCFD.Turn
