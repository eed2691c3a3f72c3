import Verif.Spec.WeakForm
import Verif.Props.Residual

/-!
# The residual is the weak form, and uniform states are steady

C71: every coefficient of the residuals of the discontinuous Galerkin schemes; C72: uniform states.
-/

namespace MiniCFD.Residual

open MiniCFD.Column MiniCFD.Projection
open MiniCFD.Spec.WeakForm
open MiniCFD.Spec.Column (amount)

variable {Pt : Type} {K n : Nat}

/-- A scheme with trace `T` that tests the flux at a point with functions of values `φ`. -/
structure Tests (S : Scheme Pt K n) (P : Part Pt K n) (T : Cell Pt K n → FacePoint Pt K → Value K)
    (φ : Fin P.count → Fin (n + 1) → FacePoint Pt K → ℝ) : Prop where
  trace : ∀ c q u, S.trace c q = some u → u = T c q
  put : ∀ b (p' p : Fin P.count) q flux a (r : Fin K) (i : Fin (n + 1)), S.put b p'.val (P.cells p') q flux = some a →
    amount p.val (i.val * K + r.val) a = if p' = p then (if b then flux r * φ p i q else -(flux r * φ p i q)) else 0

theorem sum_map_sub {α : Type*} (l : List α) (f g : α → ℝ) :
    (l.map fun a => f a - g a).sum = (l.map f).sum - (l.map g).sum := by
  induction l with
  | nil => simp
  | cons a t ih => simp only [List.map_cons, List.sum_cons, ih]; ring

theorem sum_map_if {α : Type*} (b : Prop) [Decidable b] (l : List α) (f : α → ℝ) :
    (l.map fun a => if b then f a else 0).sum = if b then (l.map f).sum else 0 := by
  split_ifs <;> simp

variable {S : Scheme Pt K n} {P : Part Pt K n} {T : Cell Pt K n → FacePoint Pt K → Value K}
  {φ : Fin P.count → Fin (n + 1) → FacePoint Pt K → ℝ}

theorem local_amount (h : Tests S P T φ) (p : Fin P.count) (r : Fin K) (i : Fin (n + 1)) {x : List (Contribution ℝ)}
    (hx : collect (onLocalFace S P) P.localFaces = some x) :
    (x.map (amount p.val (i.val * K + r.val))).sum = -outLocal T P p (φ p i) r := by
  unfold outLocal
  rw [← sum_map_neg]
  refine collect_sum (fun f _ y hy => ?_) hx
  simp only
  have := collect_sum (g := amount p.val (i.val * K + r.val)) (G := fun q =>
    -((if f.holder = p then q.weight * q.riemann.upwind (T (P.cells f.holder) q) (T (P.cells f.sharer) q) r * φ p i q
      else 0) - (if f.sharer = p then q.weight * q.riemann.upwind (T (P.cells f.holder) q) (T (P.cells f.sharer) q) r
        * φ p i q else 0))) (fun q _ z hz => ?_) hy
  · rw [this, sum_map_neg, sum_map_sub, sum_map_if, sum_map_if]
    rfl
  · simp only [Option.bind_eq_bind, Option.bind_eq_some_iff, Option.some.injEq] at hz
    obtain ⟨u, hu, v, hv, a1, h1, a2, h2, rfl⟩ := hz
    obtain rfl := h.trace _ _ _ hu
    obtain rfl := h.trace _ _ _ hv
    have e1 := h.put _ _ p _ _ _ r i h1
    have e2 := h.put _ _ p _ _ _ r i h2
    simp only [Bool.false_eq_true, if_false, if_true, weigh] at e1 e2
    simp only [List.map_cons, List.map_nil, List.sum_cons, List.sum_nil, add_zero, e1, e2]
    split_ifs <;> ring

theorem ghost_amount (h : Tests S P T φ) (p : Fin P.count) (r : Fin K) (i : Fin (n + 1)) {x : List (Contribution ℝ)}
    (hx : collect (onGhostFace S P) P.ghostFaces = some x) :
    (x.map (amount p.val (i.val * K + r.val))).sum = -outGhost T P p (φ p i) r := by
  unfold outGhost
  rw [← sum_map_neg]
  refine collect_sum (fun f _ y hy => ?_) hx
  have := collect_sum (g := amount p.val (i.val * K + r.val)) (G := fun q =>
    -(if f.holder = p then q.weight * q.riemann.upwind (T (P.cells f.holder) q) (T f.sharer q) r * φ p i q
      else 0)) (fun q _ z hz => ?_) hy
  · rw [this, sum_map_neg, sum_map_if]
    rfl
  · simp only [Option.bind_eq_bind, Option.bind_eq_some_iff, Option.some.injEq] at hz
    obtain ⟨u, hu, v, hv, a1, h1, rfl⟩ := hz
    obtain rfl := h.trace _ _ _ hu
    obtain rfl := h.trace _ _ _ hv
    have e1 := h.put _ _ p _ _ _ r i h1
    simp only [Bool.false_eq_true, if_false, if_true, weigh] at e1
    simp only [List.map_cons, List.map_nil, List.sum_cons, List.sum_nil, add_zero, e1]
    split_ifs <;> ring

theorem boundaries_amount (h : Tests S P T φ) {c : Conditions Pt K} {t : ℝ} (p : Fin P.count) (r : Fin K)
    (i : Fin (n + 1)) {x : List (Contribution ℝ)} (hx : onBoundaries S P c t = some x) :
    (x.map (amount p.val (i.val * K + r.val))).sum = -outBoundaries T P c t p (φ p i) r := by
  have h1 : (x.map (amount p.val (i.val * K + r.val))).sum
      = ((jobs c t).map fun job => -outBoundary T P p (φ p i) r job.1 job.2).sum := by
    refine collect_sum (fun job _ z hz => ?_) hx
    simp only [Option.bind_eq_bind, Option.bind_eq_some_iff] at hz
    obtain ⟨faces, h1, h2⟩ := hz
    simp only [outBoundary, h1]
    rw [← sum_map_neg]
    refine collect_sum (fun f _ y hy => ?_) h2
    have := collect_sum (g := amount p.val (i.val * K + r.val)) (G := fun q =>
      -(if f.holder = p then q.weight * job.2 q (T (P.cells f.holder) q) r * φ p i q else 0)) (fun q _ z hz => ?_) hy
    · rw [this, sum_map_neg, sum_map_if]
      rfl
    · simp only [Option.bind_eq_bind, Option.bind_eq_some_iff, Option.some.injEq] at hz
      obtain ⟨u, hu, a1, h1, rfl⟩ := hz
      obtain rfl := h.trace _ _ _ hu
      have e1 := h.put _ _ p _ _ _ r i h1
      simp only [Bool.false_eq_true, if_false, if_true, weigh] at e1
      simp only [List.map_cons, List.map_nil, List.sum_cons, List.sum_nil, add_zero, e1]
      split_ifs <;> ring
  rw [h1, sum_map_neg]
  simp only [jobs, outBoundaries, List.map_append, List.sum_append, List.map_map, Function.comp_def]
  ring

theorem divergences_amount (P : Part Pt K n) (p : Fin P.count) (r : Fin K) (i : Fin (n + 1)) :
    ((divergences P).map (amount p.val (i.val * K + r.val))).sum = inside (P.cells p) r i := by
  unfold divergences
  rw [List.map_flatMap]
  have hgen : ∀ p' : Fin P.count, ((divergence p'.val (P.cells p')).map (amount p.val (i.val * K + r.val))).sum =
      if p' = p then inside (P.cells p) r i else 0 := by
    intro p'
    unfold divergence inside
    rw [List.map_map]
    by_cases hp : p' = p
    · subst hp
      rw [if_pos rfl]
      refine congrArg List.sum (List.map_congr_left fun v _ => ?_)
      simp only [Function.comp, amount_addCoeff, if_true, Finset.mul_sum]
      exact Finset.sum_congr rfl fun k _ => by ring
    · rw [if_neg hp]
      refine List.sum_eq_zero fun y hy => ?_
      obtain ⟨v, -, rfl⟩ := List.mem_map.1 hy
      simp only [Function.comp, amount_addCoeff]
      rw [if_neg fun h => hp (Fin.ext h)]
  have hflat : ∀ l : List (Fin P.count), (l.flatMap fun p' =>
      (divergence p'.val (P.cells p')).map (amount p.val (i.val * K + r.val))).sum =
      (l.map fun p' => if p' = p then inside (P.cells p) r i else 0).sum := by
    intro l
    induction l with
    | nil => rfl
    | cons a l ih => rw [List.flatMap_cons, List.sum_append, ih, hgen, List.map_cons, List.sum_cons]
  rw [hflat, ← List.ofFn_eq_map, List.sum_ofFn]
  simp

/-- What is assembled is the weak form. -/
theorem residual_weak (hS : S.Local P) (h : Tests S P T φ) {vol : Bool} {c : Conditions Pt K} {t : ℝ}
    {res : Numbering × List ℝ} (hr : residual S vol P c t = some res)
    (hv : vol = false → ∀ p : Fin P.count, ∀ v ∈ (P.cells p).volume, ∀ k i, v.grad k i = 0)
    (p : Fin P.count) (r : Fin K) (i : Fin (n + 1)) :
    entry res p.val r i = some (weakForm T P c t p i (φ p i) r) := by
  obtain ⟨cs, h1, h2⟩ := residual_some hS hr
  rw [h2]
  simp only [contributions, Option.bind_eq_bind, Option.bind_eq_some_iff, Option.some.injEq] at h1
  obtain ⟨a, ha, b, hb, g, hg, rfl⟩ := h1
  have e1 : ((if vol then divergences P else []).map (amount p.val (i.val * K + r.val))).sum =
      inside (P.cells p) r i := by
    cases vol with
    | true => exact divergences_amount P p r i
    | false =>
      have : inside (P.cells p) r i = 0 := by
        unfold inside
        refine List.sum_eq_zero fun y hy => ?_
        obtain ⟨v, hvm, rfl⟩ := List.mem_map.1 hy
        simp [hv rfl p v hvm]
      simp [this]
  simp only [List.map_append, List.sum_append]
  rw [e1, local_amount h p r i ha, boundaries_amount h p r i hb, ghost_amount h p r i hg]
  simp only [weakForm, Option.some.injEq]
  ring

theorem general_tests (P : Part Pt K n) : Tests (general : Scheme Pt K n) P (fun c q => c.value q.coord)
    (fun p i q => (P.cells p).basis q.coord i) where
  trace c q u h := by
    simp only [general, Option.some.injEq] at h
    exact h.symm
  put b p' p q flux a r i h := by
    simp only [general, Option.some.injEq] at h
    subst h
    by_cases hp : p' = p
    · subst hp
      cases b <;> simp [amount_addCoeff, amount_minusCoeff, outer]
    · have hp' : p'.val ≠ p.val := fun h => hp (Fin.ext h)
      cases b <;> simp [amount_addCoeff, amount_minusCoeff, hp, hp']

/-- **C71.** Every coefficient of the residual of `General` is the weak form tested with that basis function, traces
being values of the polynomials.  At degree zero, where the code leaves out the integral over the cell, gradients have
to be zero, as they are. -/
theorem general_weak {P : Part Pt K n} {c : Conditions Pt K} {t : ℝ} {res : Numbering × List ℝ}
    (h : generalResidual P c t = some res)
    (h0 : n = 0 → ∀ p : Fin P.count, ∀ v ∈ (P.cells p).volume, ∀ k i, v.grad k i = 0)
    (p : Fin P.count) (r : Fin K) (i : Fin (n + 1)) :
    entry res p.val r i = some (weakForm (fun c q => c.value q.coord) P c t p i
      (fun q => (P.cells p).basis q.coord i) r) := by
  refine residual_weak (general_local P) (general_tests P) h (fun hv => h0 ?_) p r i
  simpa using hv

/-- The value which `Lobatto` takes at a face point (an arbitrary one if there is no matching node: no residual then). -/
noncomputable def nodalTrace (near : Pt → Pt → Bool) (c : Cell Pt K n) (q : FacePoint Pt K) : Value K :=
  c.nodal ((matchPoint near c q.coord).getD 0)

/-- The function of node `i` is one at the face points matched with the node and zero at the others. -/
noncomputable def nodalTest (near : Pt → Pt → Bool) (c : Cell Pt K n) (i : Fin (n + 1)) (q : FacePoint Pt K) : ℝ :=
  if matchPoint near c q.coord = some i then 1 else 0

theorem lobatto_tests (near : Pt → Pt → Bool) (P : Part Pt K n) :
    Tests (lobatto near : Scheme Pt K n) P (nodalTrace near) (fun p i q => nodalTest near (P.cells p) i q) where
  trace c q u h := by
    simp only [lobatto, Option.bind_eq_bind, Option.bind_eq_some_iff, Option.some.injEq] at h
    obtain ⟨j, hj, rfl⟩ := h
    simp [nodalTrace, hj]
  put b p' p q flux a r i h := by
    simp only [lobatto, Option.bind_eq_bind, Option.bind_eq_some_iff, Option.some.injEq] at h
    obtain ⟨j, hj, rfl⟩ := h
    by_cases hp : p' = p
    · subst hp
      by_cases hji : j = i
      · subst hji
        cases b <;> simp [amount_addValue, amount_minusValue, nodalTest, hj]
      · cases b <;> simp [amount_addValue, amount_minusValue, nodalTest, hj, hji]
    · have hp' : p'.val ≠ p.val := fun h => hp (Fin.ext h)
      cases b <;> simp [amount_addValue, amount_minusValue, hp, hp']

/-- **C71.** Every coefficient of the residual of `Lobatto` is the weak form tested with the function of that node, over
the weight of the node. -/
theorem lobatto_weak {near : Pt → Pt → Bool} {P : Part Pt K n} {c : Conditions Pt K} {t : ℝ}
    {res : Numbering × List ℝ} (hv : ∀ p, (P.cells p).volume.length = n + 1)
    (h : lobattoResidual near P c t = some res) (p : Fin P.count) (r : Fin K) (i : Fin (n + 1)) :
    entry res p.val r i = some (weakForm (nodalTrace near) P c t p i (nodalTest near (P.cells p) i) r
      / nodeWeight P p i) := by
  obtain ⟨raw, h1, h2⟩ := lobatto_entry hv h
  obtain ⟨x, hx, hr⟩ := h2 p r i
  rw [residual_weak (lobatto_local near P) (lobatto_tests near P) h1 (by simp) p r i, Option.some.injEq] at hx
  rw [hr, ← hx]
  congr 1
  ring

/-! ### C72 -/

theorem sum_swap {α : Type*} (l : List α) (F : Fin 3 → ℝ) (g : α → Fin 3 → ℝ) :
    (l.map fun a => ∑ k, F k * g a k).sum = ∑ k, F k * (l.map fun a => g a k).sum := by
  induction l with
  | nil => simp
  | cons a l ih => simp only [List.map_cons, List.sum_cons, ih, mul_add, Finset.sum_add_distrib]

/-- The weak form of a uniform state vanishes. -/
theorem weak_uniform {u : Value K} {F : Fin K → Fin 3 → ℝ} {normal : FacePoint Pt K → Fin 3 → ℝ} {P : Part Pt K n}
    {c : Conditions Pt K} {t : ℝ} (hu : Uniform u F normal P c t) {T : Cell Pt K n → FacePoint Pt K → Value K}
    (hT : ∀ p q, T (P.cells p) q = u) (hT' : ∀ f ∈ P.ghostFaces, ∀ q, T f.sharer q = u) (p : Fin P.count)
    (i : Fin (n + 1)) (φ : FacePoint Pt K → ℝ) (hd : DivergenceTheorem normal P c t p i φ) (r : Fin K) :
    weakForm T P c t p i φ r = 0 := by
  have hover : ∀ (points : List (FacePoint Pt K)) (flux : FacePoint Pt K → Value K),
      (∀ q ∈ points, flux q r = ∑ k, F r k * normal q k) →
      over points flux φ r = ∑ k, F r k * (points.map fun q => q.weight * normal q k * φ q).sum := by
    intro points flux h
    rw [← sum_swap]
    refine congrArg List.sum (List.map_congr_left fun q hq => ?_)
    rw [h q hq, Finset.mul_sum, Finset.sum_mul]
    exact Finset.sum_congr rfl fun k _ => by ring
  have e0 : inside (P.cells p) r i = ∑ k, F r k * ((P.cells p).volume.map fun v => v.weight * v.grad k i).sum := by
    rw [← sum_swap]
    refine congrArg List.sum (List.map_congr_left fun v hv => ?_)
    rw [hu.flux p v hv, Finset.mul_sum]
    exact Finset.sum_congr rfl fun k _ => by ring
  have e1 : outLocal T P p φ r = ∑ k, F r k * (P.localFaces.map fun f =>
      (if f.holder = p then (f.points.map fun q => q.weight * normal q k * φ q).sum else 0)
        - (if f.sharer = p then (f.points.map fun q => q.weight * normal q k * φ q).sum else 0)).sum := by
    rw [← sum_swap]
    refine congrArg List.sum (List.map_congr_left fun f hf => ?_)
    simp only [hT]
    rw [hover f.points _ fun q hq => hu.locals f hf q hq r]
    split_ifs <;> simp
  have e2 : outGhost T P p φ r = ∑ k, F r k * (P.ghostFaces.map fun f =>
      if f.holder = p then (f.points.map fun q => q.weight * normal q k * φ q).sum else 0).sum := by
    rw [← sum_swap]
    refine congrArg List.sum (List.map_congr_left fun f hf => ?_)
    simp only [hT, hT' f hf]
    rw [hover f.points _ fun q hq => hu.ghosts f hf q hq r]
    split_ifs <;> simp
  have e3 : outBoundaries T P c t p φ r = ∑ k, F r k * ((jobs c t).map fun job =>
      normalBoundary normal P p φ k job.1).sum := by
    have e : outBoundaries T P c t p φ r = ((jobs c t).map fun job => outBoundary T P p φ r job.1 job.2).sum := by
      simp only [jobs, outBoundaries, List.map_append, List.sum_append, List.map_map, Function.comp_def]
      ring
    rw [e, ← sum_swap]
    refine congrArg List.sum (List.map_congr_left fun job hj => ?_)
    unfold outBoundary normalBoundary
    cases hb : P.boundary job.1 with
    | none => simp
    | some faces =>
      simp only
      rw [← sum_swap]
      refine congrArg List.sum (List.map_congr_left fun f hf => ?_)
      simp only [hT]
      rw [hover f.points _ fun q hq => hu.bounds job hj faces hb f hf q hq r]
      split_ifs <;> simp
  unfold weakForm
  rw [e0, e1, e2, e3, ← Finset.sum_sub_distrib, ← Finset.sum_sub_distrib, ← Finset.sum_sub_distrib]
  refine Finset.sum_eq_zero fun k _ => ?_
  rw [hd k]
  ring

/-- **C72.** `General` keeps a uniform state: the residual is zero in every cell where the rules satisfy the divergence
theorem for the basis functions. -/
theorem general_uniform {u : Value K} {F : Fin K → Fin 3 → ℝ} {normal : FacePoint Pt K → Fin 3 → ℝ} {P : Part Pt K n}
    {c : Conditions Pt K} {t : ℝ} (hu : Uniform u F normal P c t) {res : Numbering × List ℝ}
    (h : generalResidual P c t = some res)
    (h0 : n = 0 → ∀ p : Fin P.count, ∀ v ∈ (P.cells p).volume, ∀ k i, v.grad k i = 0) (p : Fin P.count)
    (hd : ∀ i, DivergenceTheorem normal P c t p i fun q => (P.cells p).basis q.coord i) (r : Fin K) (i : Fin (n + 1)) :
    entry res p.val r i = some 0 := by
  rw [general_weak h h0 p r i, weak_uniform hu (fun p q => hu.value p q.coord)
    (fun f hf q => (hu.ghost f hf).1 q.coord) p i _ (hd i) r]

/-- **C72.** So does `Lobatto`. -/
theorem lobatto_uniform {near : Pt → Pt → Bool} {u : Value K} {F : Fin K → Fin 3 → ℝ}
    {normal : FacePoint Pt K → Fin 3 → ℝ} {P : Part Pt K n} {c : Conditions Pt K} {t : ℝ}
    (hu : Uniform u F normal P c t) {res : Numbering × List ℝ} (hv : ∀ p, (P.cells p).volume.length = n + 1)
    (h : lobattoResidual near P c t = some res) (p : Fin P.count)
    (hd : ∀ i, DivergenceTheorem normal P c t p i (nodalTest near (P.cells p) i)) (r : Fin K) (i : Fin (n + 1)) :
    entry res p.val r i = some 0 := by
  rw [lobatto_weak hv h p r i, weak_uniform hu ?_ ?_ p i _ (hd i) r, zero_div]
  · exact fun p q => hu.nodal p _
  · exact fun f hf q => (hu.ghost f hf).2 _

/-! ### A tube -/

/-- A linear cell from `s` to `s + 1` with the constant value 5, advected along the first axis. -/
noncomputable def tubeCell (s : ℝ) : Cell ℝ 1 1 where
  value _ _ := 5
  basis x := ![s + 1 - x, x - s]
  volume := [⟨fun _ => ![5, 0, 0], 1 / 2, ![![-1, 1], ![0, 0], ![0, 0]]⟩,
    ⟨fun _ => ![5, 0, 0], 1 / 2, ![![-1, 1], ![0, 0], ![0, 0]]⟩]
  nodes := ![s, s + 1]
  nodal := fun _ _ => 5

/-- Two of them between an inlet at 0 and an outlet at 2. -/
noncomputable def tube : Part ℝ 1 1 where
  count := 2
  cells p := tubeCell p.val
  inter _ := false
  localFaces := [⟨0, 1, [⟨1, 1, rightward true⟩]⟩]
  ghostFaces := []
  boundary name := if name = "in" then some [⟨0, [⟨0, 1, rightward true⟩]⟩]
    else if name = "out" then some [⟨1, [⟨2, 1, rightward true⟩]⟩] else none

/-- Its boundary conditions. -/
def tubeConditions : Conditions ℝ 1 :=
  { supersonicInlet := [("in", fun _ _ _ => 5)], supersonicOutlet := ["out"] }

open scoped Classical in
/-- The normal of its faces. -/
noncomputable def tubeNormal (q : FacePoint ℝ 1) : Fin 3 → ℝ := ![if q.coord = 0 then -1 else 1, 0, 0]

theorem tube_uniform : Uniform (fun _ => 5) (fun _ => ![5, 0, 0]) tubeNormal tube tubeConditions 0 where
  value p x := rfl
  nodal p i := rfl
  ghost f hf := absurd hf List.not_mem_nil
  flux p v hv := by
    simp only [tube, tubeCell, List.mem_cons, List.not_mem_nil, or_false] at hv
    rcases hv with rfl | rfl <;> rfl
  locals f hf q hq r := by
    obtain rfl := List.mem_singleton.1 hf
    obtain rfl := List.mem_singleton.1 hq
    simp [rightward, tubeNormal, Fin.sum_univ_three]
  ghosts f hf := absurd hf List.not_mem_nil
  bounds job hj faces hb f hf q hq r := by
    simp only [jobs, tubeConditions, List.map_cons, List.map_nil, List.nil_append, List.append_nil, List.mem_append,
      List.mem_cons, List.not_mem_nil, or_false] at hj
    rcases hj with rfl | rfl
    · cases hb
      obtain rfl := List.mem_singleton.1 hf
      obtain rfl := List.mem_singleton.1 hq
      simp [rightward, tubeNormal, Fin.sum_univ_three]
    · cases hb
      obtain rfl := List.mem_singleton.1 hf
      obtain rfl := List.mem_singleton.1 hq
      simp [rightward, tubeNormal, Fin.sum_univ_three]

/-- The residual exists and is zero. -/
example : ∃ res, generalResidual tube tubeConditions 0 = some res ∧
    ∀ (p : Fin 2) (r : Fin 1) (i : Fin 2), entry res p.val r i = some 0 := by
  have hc : ∃ cs, contributions (general : Scheme ℝ 1 1) true tube tubeConditions 0 = some cs := ⟨_, rfl⟩
  obtain ⟨cs, hc⟩ := hc
  obtain ⟨res, hres⟩ := residual_total (general_local tube) hc
  refine ⟨res, hres, fun p r i => general_uniform tube_uniform hres (by simp) p (fun i k => ?_) r i⟩
  have hjobs : jobs tubeConditions 0 = [("in", fun q _ => q.riemann.supersonicInlet (fun _ => 5)),
      ("out", fun q u => q.riemann.supersonicOutlet u)] := rfl
  rw [hjobs]
  change Fin 2 at p
  have h01 : (0 : Fin 2) ≠ 1 := by decide
  fin_cases p <;> fin_cases i <;> fin_cases k <;>
    simp [normalBoundary, tube, tubeCell, tubeNormal, h01, h01.symm] <;> norm_num

end MiniCFD.Residual
