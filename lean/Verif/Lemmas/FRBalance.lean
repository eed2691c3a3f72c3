import Verif.Lemmas.FR

/-! # The balance of one part, and the comparison of two schemes, for flux reconstruction -/

namespace MiniCFD.FR

open MiniCFD.Column MiniCFD.Projection MiniCFD.Spec.Column MiniCFD.Spec.FR
open MiniCFD.Residual (minusValue collect collect_sum collect_total sum_map_neg)

variable {D : Type} {K N : Nat} {x w : Fin (N + 1) → ℝ} {ph : Physics D K} {S : Finder D K N} {P : Part D K N}
  {c : Residual.Conditions Vec K} {t : ℝ} {σ : Sides P} {T : Trace D K N}

theorem sum_map_add {α : Type*} (f g : α → ℝ) (l : List α) :
    (l.map fun a => f a + g a).sum = (l.map f).sum + (l.map g).sum := by
  induction l with
  | nil => simp
  | cons a as ih => simp only [List.map_cons, List.sum_cons, ih]; ring

theorem sum_map_congr {α : Type*} {f g : α → ℝ} {l : List α} (h : ∀ a ∈ l, f a = g a) :
    (l.map f).sum = (l.map g).sum := by rw [List.map_congr_left h]

theorem sum_by_key {α : Type*} {n : Nat} (key : α → Fin n) (e : Fin n → α → ℝ) (l : List α) :
    (l.map fun f => e (key f) f).sum = ∑ p, ((l.filter fun f => key f = p).map (e p)).sum := by
  induction l with
  | nil => simp
  | cons a as ih =>
    rw [List.map_cons, List.sum_cons, ih, ← Finset.sum_erase_add _ _ (Finset.mem_univ (key a)),
      ← Finset.sum_erase_add (a := key a) _ _ (Finset.mem_univ (key a))]
    rw [Finset.sum_congr (g := fun p => (((a :: as).filter fun f => key f = p).map (e p)).sum) rfl]
    · rw [List.filter_cons_of_pos (by simp), List.map_cons, List.sum_cons]
      ring
    · intro p hp
      rw [List.filter_cons_of_neg (by simpa using (Finset.ne_of_mem_erase hp).symm)]

/-- The search at a point of a side. -/
theorem find_side (hS : Good x w S) {cell : Cell D K N} (hr : Resolved x cell) {s : Side} {out : ℝ}
    {center : Vec} {points : List (FacePoint D K)} (h : IsSide x w cell s out center points)
    {q : FacePoint D K} (hq : q ∈ points) :
    ∃ ν ∈ sideNodes s, q.coord = pos x cell ν ∧ ∃ h', S cell center q.coord = some h' ∧
      Finds w cell s ν h' := by
  obtain ⟨ν, h1, h2⟩ := side_node h hq
  obtain ⟨h', h3, h4⟩ := hS cell s ν hr h1
  exact ⟨ν, h1, h2, h', by rw [h.mid, h2]; exact h3, h4⟩

theorem local_moment (hl : LineRule x w) (hS : Good x w S) (hc : Conforming x w P c σ)
    {f : LocalFace D K P.count} (hf : f ∈ P.localFaces) {y : List (Contribution ℝ)}
    (h : onLocalFace S P f = some y) (r : Fin K) : (y.map (moment P w r)).sum
      = flow w (P.cells f.holder) (σ.holder f) r + flow w (P.cells f.sharer) (σ.sharer f) r := by
  have h1 := hc.holder f hf
  have h2 := hc.sharer f hf
  rw [← flow_sum (hc.resolved _) h1, ← flow_sum (hc.resolved _) h2, ← sum_map_add]
  refine collect_sum (fun q hq z hz => ?_) h
  obtain ⟨ν, a1, a2, k, a3, a4⟩ := find_side hS (hc.resolved _) h1 hq
  obtain ⟨ν', b1, b2, k', b3, b4⟩ := find_side hS (hc.resolved _) h2 hq
  simp only [a3, b3, Option.bind_eq_bind, Option.bind_some, Option.some.injEq] at hz
  subst hz
  have e1 := point_moment hl f.holder (by simp) h1 hq a1 a2 a4
    (q.common ((P.cells f.holder).data k.point.ijk) ((P.cells f.sharer).data k'.point.ijk))
    ((P.cells f.holder).flux k.point.ijk) r
  have e2 := point_moment hl f.sharer (by simp) h2 hq b1 b2 b4
    (q.common ((P.cells f.holder).data k.point.ijk) ((P.cells f.sharer).data k'.point.ijk))
    ((P.cells f.sharer).flux k'.point.ijk) r
  rw [one_mul] at e1
  rw [neg_one_mul] at e2
  rw [List.map_append, List.sum_append, e1, e2, a4.ijk, b4.ijk, a2, flowAt_pos (hc.resolved _) a1, ← a2, b2,
    flowAt_pos (hc.resolved _) b1]
  ring

theorem ghost_moment (hl : LineRule x w) (hS : Good x w S) (hc : Conforming x w P c σ)
    (hT : ∀ p, IsTrace x T (P.cells p)) (hT' : ∀ f ∈ P.ghostFaces, IsTrace x T f.sharer)
    {f : GhostFace D K N P.count} (hf : f ∈ P.ghostFaces) {y : List (Contribution ℝ)}
    (h : onGhostFace S P f = some y) (r : Fin K) : (y.map (moment P w r)).sum
      = -(f.points.map fun q => q.weight *
          q.common (T.data (P.cells f.holder) q.coord) (T.data f.sharer q.coord) r).sum +
        flow w (P.cells f.holder) (σ.ghost f) r := by
  have h1 := hc.ghost f hf
  have h2 := hc.ghostSharer f hf
  rw [← flow_sum (hc.resolved _) h1, ← sum_map_neg, ← sum_map_add]
  refine collect_sum (fun q hq z hz => ?_) h
  obtain ⟨ν, a1, a2, k, a3, a4⟩ := find_side hS (hc.resolved _) h1 hq
  obtain ⟨ν', b1, b2, k', b3, b4⟩ := find_side hS (hc.ghostResolved f hf) h2 hq
  simp only [a3, b3, Option.bind_eq_bind, Option.bind_some, Option.some.injEq] at hz
  subst hz
  have e1 := point_moment hl f.holder (by simp) h1 hq a1 a2 a4
    (q.common ((P.cells f.holder).data k.point.ijk) (f.sharer.data k'.point.ijk))
    ((P.cells f.holder).flux k.point.ijk) r
  rw [one_mul, one_mul] at e1
  have t1 : T.data (P.cells f.holder) q.coord = (P.cells f.holder).data ν := by rw [a2, (hT _ ν).1]
  have t2 : T.data f.sharer q.coord = f.sharer.data ν' := by rw [b2, (hT' f hf ν').1]
  rw [e1, t1, t2, a4.ijk, b4.ijk, a2, flowAt_pos (hc.resolved _) a1]

/-- The whole effect of a boundary face, when `inner` is what is subtracted. -/
theorem boundary_moment (hl : LineRule x w) (hS : Good x w S) (hc : Conforming x w P c σ)
    (hT : ∀ p, IsTrace x T (P.cells p)) {flux : FacePoint D K → D → Value K}
    {inner : Cell D K N → Node N → Matrix (Fin K) (Fin 3) ℝ}
    {I : Cell D K N → Vec → Matrix (Fin K) (Fin 3) ℝ}
    (hI : ∀ p ν, I (P.cells p) (pos x (P.cells p) ν) = inner (P.cells p) ν)
    {f : BoundaryFace D K P.count} (hf : f ∈ registered P c) {y : List (Contribution ℝ)}
    (h : onBoundaryFace S P flux inner f = some y) (r : Fin K) : (y.map (moment P w r)).sum
      = -(f.points.map fun q => q.weight * (flux q (T.data (P.cells f.holder) q.coord) r +
          ∑ i, (T.flux (P.cells f.holder) q.coord r i - I (P.cells f.holder) q.coord r i) * q.normal i)).sum +
        flow w (P.cells f.holder) (σ.boundary f) r := by
  have h1 := hc.boundary f hf
  rw [← flow_sum (hc.resolved _) h1, ← sum_map_neg, ← sum_map_add]
  refine collect_sum (fun q hq z hz => ?_) h
  obtain ⟨ν, a1, a2, k, a3, a4⟩ := find_side hS (hc.resolved _) h1 hq
  simp only [a3, Option.bind_eq_bind, Option.bind_some, Option.some.injEq] at hz
  subst hz
  have e1 := point_moment hl f.holder (by simp) h1 hq a1 a2 a4
    (flux q ((P.cells f.holder).data k.point.ijk)) (inner (P.cells f.holder) k.point.ijk) r
  rw [one_mul, one_mul] at e1
  have t1 : T.data (P.cells f.holder) q.coord = (P.cells f.holder).data ν := by rw [a2, (hT _ ν).1]
  have t2 : T.flux (P.cells f.holder) q.coord = (P.cells f.holder).flux ν := by rw [a2, (hT _ ν).2]
  have t3 : I (P.cells f.holder) q.coord = inner (P.cells f.holder) ν := by rw [a2, hI]
  have hA := h1.area q hq ν a1 a2
  rw [e1, t1, t2, t3, a4.ijk, show flowAt x w (P.cells f.holder) (σ.boundary f) r q.coord = _ by
    rw [a2, flowAt_pos (hc.resolved _) a1]]
  simp only [apply, Fin.sum_univ_three]
  linear_combination (inner (P.cells f.holder) ν r 0 - (P.cells f.holder).flux ν r 0) * hA 0 +
    (inner (P.cells f.holder) ν r 1 - (P.cells f.holder).flux ν r 1) * hA 1 +
    (inner (P.cells f.holder) ν r 2 - (P.cells f.holder).flux ν r 2) * hA 2

/-- The flow through all faces of a boundary. -/
noncomputable def flowThrough (w : Fin (N + 1) → ℝ) (P : Part D K N) (σ : Sides P) (name : String) (r : Fin K) : ℝ :=
  (((P.boundary name).getD []).map fun f => flow w (P.cells f.holder) (σ.boundary f) r).sum

theorem job_moment (hl : LineRule x w) (hS : Good x w S) (hc : Conforming x w P c σ)
    (hT : ∀ p, IsTrace x T (P.cells p)) {flux : FacePoint D K → D → Value K}
    {inner : Cell D K N → Node N → Matrix (Fin K) (Fin 3) ℝ}
    {I : Cell D K N → Vec → Matrix (Fin K) (Fin 3) ℝ}
    (hI : ∀ p ν, I (P.cells p) (pos x (P.cells p) ν) = inner (P.cells p) ν) {name : String}
    (hn : name ∈ names c) {y : List (Contribution ℝ)}
    (h : ((P.boundary name).bind fun faces => collect (onBoundaryFace S P flux inner) faces) = some y)
    (r : Fin K) : (y.map (moment P w r)).sum
      = -through P name (fun q cell => flux q (T.data cell q.coord) r +
          ∑ i, (T.flux cell q.coord r i - I cell q.coord r i) * q.normal i) +
        flowThrough w P σ name r := by
  simp only [Option.bind_eq_some_iff] at h
  obtain ⟨faces, h1, h2⟩ := h
  simp only [through, flowThrough, h1, Option.getD_some]
  rw [← sum_map_neg, ← sum_map_add]
  refine collect_sum (fun f hf z hz => ?_) h2
  refine boundary_moment hl hS hc hT hI ?_ hz r
  exact List.mem_flatMap.2 ⟨name, hn, by simpa [h1] using hf⟩

theorem boundaries_moment (hl : LineRule x w) (hS : Good x w S) (hc : Conforming x w P c σ)
    (hT : ∀ p, IsTrace x T (P.cells p)) {y : List (Contribution ℝ)}
    (h : onBoundaries ph S P c t = some y) (r : Fin K) : (y.map (moment P w r)).sum
      = -outflow ph T P c t r + ((registered P c).map fun f => flow w (P.cells f.holder) (σ.boundary f) r).sum := by
  -- what every kind of boundary adds
  have hv : ∀ p ν, ph.fluxMatrix (ph.value (T.data (P.cells p) (pos x (P.cells p) ν)))
      = ph.fluxMatrix (ph.value ((P.cells p).data ν)) := fun p ν => by rw [(hT p ν).1]
  have hf : ∀ p ν, T.flux (P.cells p) (pos x (P.cells p) ν) = (P.cells p).flux ν := fun p ν => (hT p ν).2
  have hreg : ((registered P c).map fun f => flow w (P.cells f.holder) (σ.boundary f) r).sum
      = ((names c).map fun name => flowThrough w P σ name r).sum := by
    unfold registered flowThrough
    induction names c with
    | nil => rfl
    | cons a l ih => simp only [List.flatMap_cons, List.map_append, List.sum_append, List.map_cons,
        List.sum_cons, ih]
  have hnames : ∀ name, name ∈ names c ↔ name ∈ c.solidWall ∨ name ∈ c.supersonicOutlet ∨
      name ∈ c.supersonicInlet.map Prod.fst ∨ name ∈ c.subsonicInlet.map Prod.fst ∨
      name ∈ c.subsonicOutlet.map Prod.fst ∨ name ∈ c.smart.map Prod.fst := fun name => by
    simp only [names, List.mem_append]; tauto
  unfold onBoundaries jobs at h
  simp only [Residual.collect_append, Option.bind_eq_some_iff, Option.map_eq_some_iff] at h
  obtain ⟨_, ⟨_, ⟨_, ⟨_, ⟨y1, g1, y2, g2, rfl⟩, y3, g3, rfl⟩, y4, g4, rfl⟩, y5, g5, rfl⟩, y6, g6, rfl⟩ := h
  have key : ∀ {α : Type} {l : List α} {mk : α → Job D K N} {y : List (Contribution ℝ)} {G : α → ℝ},
      (∀ a ∈ l, ∀ z, ((P.boundary (mk a).name).bind fun faces =>
        collect (onBoundaryFace S P (mk a).flux (mk a).inner) faces) = some z → (z.map (moment P w r)).sum = G a) →
      collect (fun job : Job D K N => do
        let faces ← P.boundary job.name
        collect (onBoundaryFace S P job.flux job.inner) faces) (l.map mk) = some y →
      (y.map (moment P w r)).sum = (l.map G).sum := by
    intro α l mk y G hG hy
    induction l generalizing y with
    | nil => simp only [List.map_nil, collect, Option.some.injEq] at hy; subst hy; rfl
    | cons a l ih =>
      simp only [List.map_cons, collect, Option.bind_eq_bind, Option.bind_eq_some_iff, Option.some.injEq] at hy
      obtain ⟨z, h1, z', h2, rfl⟩ := hy
      rw [List.map_append, List.sum_append, List.map_cons, List.sum_cons,
        hG a (by simp) z (by simpa only [Option.bind_eq_some_iff] using h1),
        ih (fun b hb => hG b (List.mem_cons_of_mem _ hb)) h2]
  have e1 := key (fun name hn z hz => job_moment hl hS hc hT
    (I := fun cell y => ph.fluxMatrix (ph.value (T.data cell y))) hv
    ((hnames _).2 (Or.inl hn)) hz r) g1
  have e2 := key (fun nf hn z hz => job_moment hl hS hc hT
    (I := fun cell y => ph.fluxMatrix (ph.value (T.data cell y))) hv
    ((hnames _).2 (Or.inr (Or.inr (Or.inl (List.mem_map_of_mem hn))))) hz r) g2
  have e3 := key (fun name hn z hz => job_moment hl hS hc hT (I := T.flux) hf
    ((hnames _).2 (Or.inr (Or.inl hn))) hz r) g3
  have e4 := key (fun nf hn z hz => job_moment hl hS hc hT
    (I := fun cell y => ph.fluxMatrix (ph.value (T.data cell y))) hv
    ((hnames _).2 (Or.inr (Or.inr (Or.inr (Or.inl (List.mem_map_of_mem hn)))))) hz r) g4
  have e5 := key (fun nf hn z hz => job_moment hl hS hc hT
    (I := fun cell y => ph.fluxMatrix (ph.value (T.data cell y))) hv
    ((hnames _).2 (Or.inr (Or.inr (Or.inr (Or.inr (Or.inl (List.mem_map_of_mem hn))))))) hz r) g5
  have e6 := key (fun nf hn z hz => job_moment hl hS hc hT
    (I := fun cell y => ph.fluxMatrix (ph.value (T.data cell y))) hv
    ((hnames _).2 (Or.inr (Or.inr (Or.inr (Or.inr (Or.inr (List.mem_map_of_mem hn))))))) hz r) g6
  rw [hreg]
  simp only [List.map_append, List.sum_append, e1, e2, e3, e4, e5, e6, sum_map_add, sum_map_neg]
  simp only [names, outflow, viscous, List.map_append, List.sum_append, List.map_map, Function.comp_def,
    sub_self, zero_mul, Finset.sum_const_zero, add_zero]
  ring

/-- The balance of one part. -/
theorem part_balance (hl : LineRule x w) (hN : 0 < N) (hS : Good x w S) (hc : Conforming x w P c σ)
    (hT : ∀ p, IsTrace x T (P.cells p)) (hT' : ∀ f ∈ P.ghostFaces, IsTrace x T f.sharer)
    {res : Numbering × List ℝ} (h : residual x ph S P c t = some res) (r : Fin K) :
    integral w P res r = -outflow ph T P c t r - ((interfaces T P).map fun s => s.flux r).sum := by
  obtain ⟨cs, h1, h2⟩ := residual_some h
  rw [integral_eq w h2]
  simp only [contributions, Option.bind_eq_bind, Option.bind_eq_some_iff, Option.some.injEq] at h1
  obtain ⟨a, ha, b, hb, g, hg, rfl⟩ := h1
  simp only [List.map_append, List.sum_append]
  have e1 : ((divergences x P).map (moment P w r)).sum
      = -∑ p, (allSides.map fun s => flow w (P.cells p) s r).sum := by
    have : ∀ l : List (Fin P.count), ((l.flatMap fun p => divergence x p.val (P.cells p)).map (moment P w r)).sum
        = (l.map fun p => -(allSides.map fun s => flow w (P.cells p) s r).sum).sum := by
      intro l
      induction l with
      | nil => rfl
      | cons p l ih =>
        simp only [List.flatMap_cons, List.map_append, List.sum_append, List.map_cons, List.sum_cons, ih,
          divergence_moment hl hN]
    rw [divergences, this, sum_map_neg, ← List.ofFn_eq_map, List.sum_ofFn]
  have e2 : (a.map (moment P w r)).sum = (P.localFaces.map fun f =>
      flow w (P.cells f.holder) (σ.holder f) r + flow w (P.cells f.sharer) (σ.sharer f) r).sum :=
    collect_sum (fun f hf z hz => local_moment hl hS hc hf hz r) ha
  have e3 := boundaries_moment (ph := ph) (t := t) hl hS hc hT hb r
  have e4 := collect_sum (fun f hf z hz => ghost_moment hl hS hc hT hT' hf hz r) hg
  have e5 : ∀ p, (allSides.map fun s => flow w (P.cells p) s r).sum
      = ((P.localFaces.filter fun f => f.holder = p).map fun f => flow w (P.cells p) (σ.holder f) r).sum +
        ((P.localFaces.filter fun f => f.sharer = p).map fun f => flow w (P.cells p) (σ.sharer f) r).sum +
        ((P.ghostFaces.filter fun f => f.holder = p).map fun f => flow w (P.cells p) (σ.ghost f) r).sum +
        (((registered P c).filter fun f => f.holder = p).map fun f => flow w (P.cells p) (σ.boundary f) r).sum := by
    intro p
    have := ((hc.covered p).map fun s => flow w (P.cells p) s r).sum_eq
    simp only [List.map_append, List.sum_append, List.map_map, Function.comp_def] at this
    exact this.symm
  rw [e1, e2, e3, e4, sum_map_add, sum_map_add, sum_map_neg]
  simp only [e5, Finset.sum_add_distrib]
  rw [sum_by_key (fun f : LocalFace D K P.count => f.holder) (fun p f => flow w (P.cells p) (σ.holder f) r),
    sum_by_key (fun f : LocalFace D K P.count => f.sharer) (fun p f => flow w (P.cells p) (σ.sharer f) r),
    sum_by_key (fun f : GhostFace D K N P.count => f.holder) (fun p f => flow w (P.cells p) (σ.ghost f) r),
    sum_by_key (fun f : BoundaryFace D K P.count => f.holder) (fun p f => flow w (P.cells p) (σ.boundary f) r)]
  simp only [interfaces, List.map_map, Function.comp_def, Interface.flux]
  ring

/-- On a conforming mesh all searches succeed. -/
theorem part_defined (hS : Good x w S) (hc : Conforming x w P c σ) :
    ∃ res, residual x ph S P c t = some res := by
  obtain ⟨a, ha⟩ : ∃ a, collect (onLocalFace S P) P.localFaces = some a :=
    collect_total fun f hf => collect_total fun q hq => by
      obtain ⟨ν, a1, a2, k, a3, a4⟩ := find_side hS (hc.resolved _) (hc.holder f hf) hq
      obtain ⟨ν', b1, b2, k', b3, b4⟩ := find_side hS (hc.resolved _) (hc.sharer f hf) hq
      simp only [a3, b3, Option.bind_eq_bind, Option.bind_some]
      exact ⟨_, rfl⟩
  obtain ⟨g, hg⟩ : ∃ g, collect (onGhostFace S P) P.ghostFaces = some g :=
    collect_total fun f hf => collect_total fun q hq => by
      obtain ⟨ν, a1, a2, k, a3, a4⟩ := find_side hS (hc.resolved _) (hc.ghost f hf) hq
      obtain ⟨ν', b1, b2, k', b3, b4⟩ := find_side hS (hc.ghostResolved f hf) (hc.ghostSharer f hf) hq
      simp only [a3, b3, Option.bind_eq_bind, Option.bind_some]
      exact ⟨_, rfl⟩
  obtain ⟨b, hb⟩ : ∃ b, onBoundaries ph S P c t = some b :=
    collect_total fun job hj => by
      have hn : job.name ∈ names c := by
        simp only [jobs, List.mem_append, List.mem_map] at hj
        simp only [names, List.mem_append, List.mem_map]
        rcases hj with ((((⟨n, h, rfl⟩ | ⟨n, h, rfl⟩) | ⟨n, h, rfl⟩) | ⟨n, h, rfl⟩) | ⟨n, h, rfl⟩) | ⟨n, h, rfl⟩
        · exact Or.inl (Or.inl (Or.inl (Or.inl (Or.inl h))))
        · exact Or.inl (Or.inl (Or.inl (Or.inr ⟨n, h, rfl⟩)))
        · exact Or.inl (Or.inl (Or.inl (Or.inl (Or.inr h))))
        · exact Or.inl (Or.inl (Or.inr ⟨n, h, rfl⟩))
        · exact Or.inl (Or.inr ⟨n, h, rfl⟩)
        · exact Or.inr ⟨n, h, rfl⟩
      obtain ⟨faces, h1⟩ := Option.isSome_iff_exists.1 (hc.known _ hn)
      simp only [h1, Option.bind_eq_bind, Option.bind_some]
      refine collect_total fun f hf => collect_total fun q hq => ?_
      have hf' : f ∈ registered P c := List.mem_flatMap.2 ⟨job.name, hn, by simpa [h1] using hf⟩
      obtain ⟨ν, a1, a2, k, a3, a4⟩ := find_side hS (hc.resolved _) (hc.boundary f hf') hq
      simp only [a3, Option.bind_eq_bind, Option.bind_some]
      exact ⟨_, rfl⟩
  exact residual_total (cs := divergences x P ++ a ++ b ++ g)
    (by simp only [contributions, ha, hb, hg, Option.bind_eq_bind, Option.bind_some])

theorem mirror_cancel {a b : Interface D K} (h : Mirror a b) (r : Fin K) : a.flux r + b.flux r = 0 := by
  obtain ⟨l, h1, h2⟩ := h
  have e : b.flux r = -a.flux r := by
    unfold Interface.flux
    rw [(h1.map _).sum_eq, ← sum_map_neg]
    clear h1
    generalize a.points = la at h2
    induction h2 with
    | nil => rfl
    | cons h _ ih =>
      simp only [List.map_cons, List.sum_cons, ih]
      obtain ⟨h1, h2, h3, h4, h5⟩ := h
      rw [h1, h2, h3, h4, h5]
      ring
  rw [e]; ring

theorem paired_cancel {l : List (Interface D K)} (h : Paired l) (r : Fin K) :
    (l.map fun s => s.flux r).sum = 0 := by
  obtain ⟨pairs, h1, h2⟩ := h
  rw [(h1.map _).sum_eq]
  clear h1
  induction pairs with
  | nil => rfl
  | cons ab rest ih =>
    simp only [List.flatMap_cons, List.cons_append, List.nil_append, List.map_cons, List.sum_cons]
    rw [ih fun x hx => h2 x (List.mem_cons_of_mem _ hx)]
    have := mirror_cancel (h2 ab (by simp)) r
    linarith

/-- Values and fluxes at points can always be given for cells whose nodes are apart. -/
theorem exists_trace (x : Fin (N + 1) → ℝ) : ∃ T : Trace D K N, ∀ c : Cell D K N, Resolved x c → IsTrace x T c := by
  classical
  refine ⟨⟨fun c y => if h : ∃ q, pos x c q = y then c.data h.choose else c.data 0,
    fun c y => if h : ∃ q, pos x c q = y then c.flux h.choose else 0⟩, fun c hc q => ?_⟩
  have h : ∃ q', pos x c q' = pos x c q := ⟨q, rfl⟩
  have e : h.choose = q := pos_injective hc h.choose_spec
  simp only [dif_pos h, e, and_self]

/-! ### Two finders -/

/-- Finders that fail together, and otherwise agree on the flux point and on what is added to every node. -/
def SameCache (S S' : Finder D K N) : Prop := ∀ c y z, match S c y z, S' c y z with
  | none, none => True
  | some h, some h' => h.point = h'.point ∧ ∀ q, (h.line.map fun gq => if gq.2 = q then gq.1 else 0).sum
      = (h'.line.map fun gq => if gq.2 = q then gq.1 else 0).sum
  | _, _ => False

/-- Contributions adding the same to every entry. -/
def SameList (P : Part D K N) (a b : List (Contribution ℝ)) : Prop :=
  ∀ (p : Fin P.count) (r : Fin K) (q : Node N),
    (a.map (amount p.val (flat q * K + r.val))).sum = (b.map (amount p.val (flat q * K + r.val))).sum

def Same (P : Part D K N) : Option (List (Contribution ℝ)) → Option (List (Contribution ℝ)) → Prop
  | none, none => True
  | some a, some b => SameList P a b
  | _, _ => False

theorem SameList.append {a b a' b' : List (Contribution ℝ)} (h : SameList P a a') (h' : SameList P b b') :
    SameList P (a ++ b) (a' ++ b') := fun p r q => by
  rw [List.map_append, List.map_append, List.sum_append, List.sum_append, h, h']

theorem same_bind {u u' v v' : Option (List (Contribution ℝ))} (h : Same P u u') (h' : Same P v v') :
    Same P (u.bind fun a => v.bind fun b => some (a ++ b)) (u'.bind fun a => v'.bind fun b => some (a ++ b)) := by
  cases u <;> cases u' <;> cases v <;> cases v' <;> simp_all [Same]
  exact SameList.append h h'

theorem collect_same {α : Type*} {f g : α → Option (List (Contribution ℝ))} {l : List α}
    (h : ∀ a ∈ l, Same P (f a) (g a)) : Same P (collect f l) (collect g l) := by
  induction l with
  | nil => intro p r q; rfl
  | cons a l ih =>
    simp only [collect, Option.bind_eq_bind]
    exact same_bind (h a (by simp)) (ih fun b hb => h b (List.mem_cons_of_mem _ hb))

theorem correct_amount (p p' : Nat) (h : Cache N) (f : Value K) (r : Fin K) (q : Node N) :
    ((correct p h f).map (amount p' (flat q * K + r.val))).sum
      = if p = p' then -(f r * (h.line.map fun gq => if gq.2 = q then gq.1 else 0).sum) else 0 := by
  unfold correct
  induction h.line with
  | nil => simp
  | cons a l ih =>
    simp only [List.map_cons, List.sum_cons, ih, amount_minusValue]
    by_cases hp : p = p' <;> by_cases hq : a.2 = q <;> simp [hp, hq]
    ring

theorem correct_same {h h' : Cache N} (hs : ∀ q, (h.line.map fun gq => if gq.2 = q then gq.1 else 0).sum
      = (h'.line.map fun gq => if gq.2 = q then gq.1 else 0).sum) (p : Nat) (f : Value K) :
    SameList P (correct p h f) (correct p h' f) := fun p' r q => by
  rw [correct_amount, correct_amount, hs]

theorem contributions_same {S S' : Finder D K N} (h : SameCache S S') :
    Same P (contributions x ph S P c t) (contributions x ph S' P c t) := by
  have h1 : Same P (collect (onLocalFace S P) P.localFaces) (collect (onLocalFace S' P) P.localFaces) := by
    refine collect_same fun f _ => collect_same fun q _ => ?_
    have a := h (P.cells f.holder) f.center q.coord
    have b := h (P.cells f.sharer) f.center q.coord
    revert a b
    cases S (P.cells f.holder) f.center q.coord <;> cases S' (P.cells f.holder) f.center q.coord <;>
      cases S (P.cells f.sharer) f.center q.coord <;> cases S' (P.cells f.sharer) f.center q.coord <;>
      intro a b <;> simp only [Option.bind_eq_bind, Option.bind_some, Option.bind_none, Same] at a b ⊢
    rw [a.1, b.1]
    exact SameList.append (correct_same a.2 _ _) (correct_same b.2 _ _)
  have h2 : Same P (onBoundaries ph S P c t) (onBoundaries ph S' P c t) := by
    refine collect_same fun job _ => ?_
    cases P.boundary job.name with
    | none => trivial
    | some faces =>
      refine collect_same fun f _ => collect_same fun q _ => ?_
      have a := h (P.cells f.holder) f.center q.coord
      revert a
      cases S (P.cells f.holder) f.center q.coord <;> cases S' (P.cells f.holder) f.center q.coord <;>
        intro a <;> simp only [Option.bind_eq_bind, Option.bind_some, Option.bind_none, Same] at a ⊢
      rw [a.1]
      exact correct_same a.2 _ _
  have h3 : Same P (collect (onGhostFace S P) P.ghostFaces) (collect (onGhostFace S' P) P.ghostFaces) := by
    refine collect_same fun f _ => collect_same fun q _ => ?_
    have a := h (P.cells f.holder) f.center q.coord
    have b := h f.sharer f.center q.coord
    revert a b
    cases S (P.cells f.holder) f.center q.coord <;> cases S' (P.cells f.holder) f.center q.coord <;>
      cases S f.sharer f.center q.coord <;> cases S' f.sharer f.center q.coord <;>
      intro a b <;> simp only [Option.bind_eq_bind, Option.bind_some, Option.bind_none, Same] at a b ⊢
    rw [a.1, b.1]
    exact correct_same a.2 _ _
  unfold contributions
  revert h1 h2 h3
  cases collect (onLocalFace S P) P.localFaces <;> cases collect (onLocalFace S' P) P.localFaces <;>
    cases onBoundaries ph S P c t <;> cases onBoundaries ph S' P c t <;>
    cases collect (onGhostFace S P) P.ghostFaces <;> cases collect (onGhostFace S' P) P.ghostFaces <;>
    intro h1 h2 h3 <;> simp only [Option.bind_eq_bind, Option.bind_some, Option.bind_none, Same] at h1 h2 h3 ⊢
  exact SameList.append (SameList.append (SameList.append (fun _ _ _ => rfl) h1) h2) h3

theorem residual_same {S S' : Finder D K N} (h : SameCache S S') :
    residual x ph S P c t = residual x ph S' P c t := by
  have h1 := contributions_same (x := x) (ph := ph) (P := P) (c := c) (t := t) h
  cases e : contributions x ph S P c t <;> cases e' : contributions x ph S' P c t <;> rw [e, e'] at h1
  · simp only [residual, e, e', Option.bind_eq_bind, Option.bind_none]
  · exact h1.elim
  · exact h1.elim
  · exact residual_congr e e' h1

end MiniCFD.FR
