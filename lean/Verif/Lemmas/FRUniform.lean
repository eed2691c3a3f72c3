import Verif.Spec.FRUniform
import Verif.Lemmas.FRBalance
import Verif.Props.LocalHex

/-! # Metric terms of flux reconstruction -/

namespace MiniCFD.FR

open MiniCFD.Column MiniCFD.Projection MiniCFD.Spec.FR Polynomial
open MiniCFD.Residual (Conditions collect)
open MiniCFD.Spec.Column (amount)

variable {D : Type} {K N : Nat}

/-- The discrete divergence of the metric terms. -/
noncomputable def defect (x : Fin (N + 1) → ℝ) (c : Cell D K N) (q : Node N) (i : Fin 3) : ℝ :=
  ∑ k, ∑ d, c.assoc k i d * basisGradient x q k d

/-! ### Contributions of a uniform state -/

theorem jump_zero {x w : Fin (N + 1) → ℝ} (hl : LineRule x w) {c : Cell D K N} {s : Side} {out : ℝ}
    (ho : out = 1 ∨ out = -1) {center : Vec} {points : List (FacePoint D K)} (h : IsSide x w c s out center points)
    {q : FacePoint D K} (hq : q ∈ points) {ν : Node N} (hν : ν ∈ sideNodes s) (e : q.coord = pos x c ν)
    {h' : Cache N} (hf : Finds w c s ν h') {up : Value K} {F : Matrix (Fin K) (Fin 3) ℝ}
    (hu : ∀ r, up r = ∑ i, F r i * q.normal i) :
    jump up (out * h'.point.scale) F h'.point.normal = fun _ => 0 := by
  have ho' : |out| = 1 := by rcases ho with rfl | rfl <;> simp
  have hoo : out * out = 1 := by rcases ho with rfl | rfl <;> norm_num
  have hs : sign s * sign s = 1 := by unfold sign; split <;> norm_num
  have hw := side_weight hl ho' h hq hν e
  have hm := (sideMass_pos hl s.1 ν).ne'
  have key : ∀ i, out * sign s * length (fun i => c.assoc ν i s.1) * q.normal i = c.assoc ν i s.1 := by
    intro i
    have h1 := h.area q hq ν hν e i
    rw [← hw] at h1
    have : sideMass w s.1 ν * (out * sign s * length (fun i => c.assoc ν i s.1) * q.normal i)
        = sideMass w s.1 ν * c.assoc ν i s.1 := by
      linear_combination (-(sign s)) * h1 + sideMass w s.1 ν * c.assoc ν i s.1 * hs
    exact mul_left_cancel₀ hm this
  funext r
  rw [jump, hf.scale, hf.normal, hu, apply, Finset.sum_mul, sub_eq_zero]
  exact Finset.sum_congr rfl fun i _ => by rw [← key i]; ring

theorem correct_zero (p : Nat) (h : Cache N) (p' : Nat) (r : Fin K) (q : Node N) :
    ((correct p h (fun _ : Fin K => 0)).map (amount p' (flat q * K + r.val))).sum = 0 := by
  rw [correct_amount]
  simp

section

variable {x w : Fin (N + 1) → ℝ} {ph : Physics D K} {S : Finder D K N} {P : Part D K N}
  {c : Residual.Conditions Vec K} {t : ℝ} {σ : Sides P} {d : D} {F : Matrix (Fin K) (Fin 3) ℝ}

theorem sum_zero {α : Type*} {l : List α} {f : α → ℝ} (h : ∀ a ∈ l, f a = 0) : (l.map f).sum = 0 :=
  List.sum_eq_zero fun b hb => by
    obtain ⟨a, ha, rfl⟩ := List.mem_map.1 hb
    exact h a ha

theorem local_zero (hl : LineRule x w) (hS : Good x w S) (hc : Conforming x w P c σ) (hu : Uniform d F ph P c t)
    {f : LocalFace D K P.count} (hf : f ∈ P.localFaces) {y : List (Contribution ℝ)}
    (h : onLocalFace S P f = some y) (p : Nat) (r : Fin K) (q : Node N) :
    (y.map (amount p (flat q * K + r.val))).sum = 0 := by
  have h1 := hc.holder f hf
  have h2 := hc.sharer f hf
  rw [Residual.collect_sum (G := fun _ => 0) (fun q' hq z hz => ?_) h, sum_zero fun _ _ => rfl]
  obtain ⟨ν, a1, a2, k, a3, a4⟩ := find_side hS (hc.resolved _) h1 hq
  obtain ⟨ν', b1, b2, k', b3, b4⟩ := find_side hS (hc.resolved _) h2 hq
  simp only [a3, b3, Option.bind_eq_bind, Option.bind_some, Option.some.injEq, hu.data, hu.flux] at hz
  subst hz
  have e1 := jump_zero hl (.inl rfl) h1 hq a1 a2 a4 (hu.locals f hf q' hq)
  have e2 := jump_zero hl (.inr rfl) h2 hq b1 b2 b4 (hu.locals f hf q' hq)
  rw [one_mul] at e1
  rw [neg_one_mul] at e2
  rw [e1, e2, List.map_append, List.sum_append, correct_zero, correct_zero, add_zero]

theorem ghost_zero (hl : LineRule x w) (hS : Good x w S) (hc : Conforming x w P c σ) (hu : Uniform d F ph P c t)
    {f : GhostFace D K N P.count} (hf : f ∈ P.ghostFaces) {y : List (Contribution ℝ)}
    (h : onGhostFace S P f = some y) (p : Nat) (r : Fin K) (q : Node N) :
    (y.map (amount p (flat q * K + r.val))).sum = 0 := by
  have h1 := hc.ghost f hf
  have h2 := hc.ghostSharer f hf
  rw [Residual.collect_sum (G := fun _ => 0) (fun q' hq z hz => ?_) h, sum_zero fun _ _ => rfl]
  obtain ⟨ν, a1, a2, k, a3, a4⟩ := find_side hS (hc.resolved _) h1 hq
  obtain ⟨ν', b1, b2, k', b3, b4⟩ := find_side hS (hc.ghostResolved f hf) h2 hq
  simp only [a3, b3, Option.bind_eq_bind, Option.bind_some, Option.some.injEq, hu.data, hu.flux,
    hu.ghost f hf] at hz
  subst hz
  have e1 := jump_zero hl (.inl rfl) h1 hq a1 a2 a4 (hu.ghosts f hf q' hq)
  rw [one_mul] at e1
  rw [e1, correct_zero]

theorem job_name {job : Job D K N} (hj : job ∈ jobs ph c t) : job.name ∈ names c := by
  simp only [jobs, List.mem_append, List.mem_map] at hj
  simp only [names, List.mem_append, List.mem_map]
  rcases hj with ((((⟨n, h, rfl⟩ | ⟨n, h, rfl⟩) | ⟨n, h, rfl⟩) | ⟨n, h, rfl⟩) | ⟨n, h, rfl⟩) | ⟨n, h, rfl⟩
  · exact Or.inl (Or.inl (Or.inl (Or.inl (Or.inl h))))
  · exact Or.inl (Or.inl (Or.inl (Or.inr ⟨n, h, rfl⟩)))
  · exact Or.inl (Or.inl (Or.inl (Or.inl (Or.inr h))))
  · exact Or.inl (Or.inl (Or.inr ⟨n, h, rfl⟩))
  · exact Or.inl (Or.inr ⟨n, h, rfl⟩)
  · exact Or.inr ⟨n, h, rfl⟩

theorem job_uniform (hu : Uniform d F ph P c t) {job : Job D K N} (hj : job ∈ jobs ph c t) :
    Passes F P job.name (fun q => job.flux q d) ∧ ∀ p q, job.inner (P.cells p) q = F := by
  have hin : ∀ p q, ph.fluxMatrix (ph.value ((P.cells p).data q)) = F := fun p q => by
    rw [hu.data, hu.convective]
  simp only [jobs, List.mem_append, List.mem_map] at hj
  rcases hj with ((((⟨n, h, rfl⟩ | ⟨n, h, rfl⟩) | ⟨n, h, rfl⟩) | ⟨n, h, rfl⟩) | ⟨n, h, rfl⟩) | ⟨n, h, rfl⟩
  · exact ⟨hu.wall n h, hin⟩
  · exact ⟨hu.inlet n h, hin⟩
  · exact ⟨hu.outlet n h, hu.flux⟩
  · exact ⟨hu.subInlet n h, hin⟩
  · exact ⟨hu.subOutlet n h, hin⟩
  · exact ⟨hu.smart n h, hin⟩

theorem boundaries_zero (hl : LineRule x w) (hS : Good x w S) (hc : Conforming x w P c σ)
    (hu : Uniform d F ph P c t) {y : List (Contribution ℝ)} (h : onBoundaries ph S P c t = some y) (p : Nat)
    (r : Fin K) (q : Node N) : (y.map (amount p (flat q * K + r.val))).sum = 0 := by
  rw [Residual.collect_sum (G := fun _ => 0) (fun job hj z hz => ?_) h, sum_zero fun _ _ => rfl]
  obtain ⟨hp, hi⟩ := job_uniform hu hj
  simp only [Option.bind_eq_bind, Option.bind_eq_some_iff] at hz
  obtain ⟨faces, hb, hz⟩ := hz
  rw [Residual.collect_sum (G := fun _ => 0) (fun f hf z hz => ?_) hz, sum_zero fun _ _ => rfl]
  have hf' : f ∈ registered P c := List.mem_flatMap.2 ⟨job.name, job_name hj, by simpa [hb] using hf⟩
  have h1 := hc.boundary f hf'
  rw [Residual.collect_sum (G := fun _ => 0) (fun q' hq z hz => ?_) hz, sum_zero fun _ _ => rfl]
  obtain ⟨ν, a1, a2, k, a3, a4⟩ := find_side hS (hc.resolved _) h1 hq
  simp only [a3, Option.bind_eq_bind, Option.bind_some, Option.some.injEq, hu.data, hi] at hz
  subst hz
  have e1 := jump_zero hl (.inl rfl) h1 hq a1 a2 a4 (hp faces hb f hf q' hq)
  rw [one_mul] at e1
  rw [e1, correct_zero]

theorem divergence_amount (hu : Uniform d F ph P c t) (p p' : Fin P.count) (r : Fin K) (q : Node N) :
    ((divergence x p'.val (P.cells p')).map (amount p.val (flat q * K + r.val))).sum
      = if p' = p then -∑ i, F r i * defect x (P.cells p) q i else 0 := by
  unfold divergence
  rw [List.map_map]
  simp only [Function.comp_def, amount_minusValue]
  rw [sum_nodes]
  by_cases hp : p' = p
  · subst hp
    simp only [true_and, if_true]
    rw [Finset.sum_ite_eq' Finset.univ q, if_pos (Finset.mem_univ _), sum_nodes, neg_inj]
    have e : ∀ k, apply (localFlux (P.cells p') k) (basisGradient x q k) r
        = ∑ i, F r i * ∑ d, (P.cells p').assoc k i d * basisGradient x q k d := by
      intro k
      rw [apply]
      simp only [localFlux_apply, apply, hu.flux, Finset.sum_mul, Finset.mul_sum]
      rw [Finset.sum_comm]
      exact Finset.sum_congr rfl fun i _ => Finset.sum_congr rfl fun d _ => by ring
    simp only [e, defect]
    rw [Finset.sum_comm]
    exact Finset.sum_congr rfl fun i _ => by rw [Finset.mul_sum]
  · have : ¬ p'.val = p.val := fun h => hp (Fin.ext h)
    simp [hp, this]

/-- The residual of a uniform state is the flux times the divergence of the metric terms. -/
theorem uniform_entry (hl : LineRule x w) (hS : Good x w S) (hc : Conforming x w P c σ)
    (hu : Uniform d F ph P c t) {res : Numbering × List ℝ} (h : residual x ph S P c t = some res)
    (p : Fin P.count) (r : Fin K) (q : Node N) :
    entry res p.val r q = some (-∑ i, F r i * defect x (P.cells p) q i) := by
  obtain ⟨cs, h1, h2⟩ := residual_some h
  rw [h2]
  simp only [contributions, Option.bind_eq_bind, Option.bind_eq_some_iff, Option.some.injEq] at h1
  obtain ⟨a, ha, b, hb, g, hg, rfl⟩ := h1
  simp only [List.map_append, List.sum_append]
  rw [boundaries_zero hl hS hc hu hb,
    Residual.collect_sum (G := fun _ => 0) (fun f hf z hz => local_zero hl hS hc hu hf hz _ r q) ha,
    Residual.collect_sum (G := fun _ => 0) (fun f hf z hz => ghost_zero hl hS hc hu hf hz _ r q) hg,
    sum_zero fun _ _ => rfl, sum_zero fun _ _ => rfl]
  have : ∀ l : List (Fin P.count), ((l.flatMap fun p => divergence x p.val (P.cells p)).map
      (amount p.val (flat q * K + r.val))).sum
      = (l.map fun p' => if p' = p then -∑ i, F r i * defect x (P.cells p) q i else 0).sum := by
    intro l
    induction l with
    | nil => rfl
    | cons p l ih =>
      simp only [List.flatMap_cons, List.map_append, List.sum_append, List.map_cons, List.sum_cons, ih,
        divergence_amount hu]
  rw [divergences, this, ← List.ofFn_eq_map, List.sum_ofFn, Finset.sum_ite_eq' Finset.univ p,
    if_pos (Finset.mem_univ _)]
  simp

end

/-! ### Derivatives along a line of nodes -/

/-- The node with index `l` along axis `d`. -/
def setAt (q : Node N) (d : Fin 3) (l : Fin (N + 1)) : Node N :=
  match d with
  | 0 => (l, q.2.1, q.2.2)
  | 1 => (q.1, l, q.2.2)
  | 2 => (q.1, q.2.1, l)

theorem loc_setAt (x : Fin (N + 1) → ℝ) (q : Node N) (d : Fin 3) (l : Fin (N + 1)) :
    loc x (setAt q d l) = Function.update (loc x q) d (x l) := by
  funext e
  fin_cases d <;> fin_cases e <;> simp [loc, at_, setAt, Function.update]

theorem line_sum {x : Fin (N + 1) → ℝ} (hx : Function.Injective x) (f : Node N → ℝ) (q : Node N) (d : Fin 3) :
    ∑ k, f k * basisGradient x q k d
      = ∑ l, f (setAt q d l) * Lagrange.lineDerivatives x 1 (x (at_ q d)) l := by
  have h0 : ∀ i j, Lagrange.lineDerivatives x 0 (x i) j = if j = i then 1 else 0 := fun i j => by
    rw [Lagrange.line_zeroth hx, Lagrange.line_cardinal hx]
  simp only [Fintype.sum_prod_type]
  fin_cases d
  · simp only [basisGradient, h0, Fin.zero_eta, Matrix.cons_val, setAt, at_]
    refine Finset.sum_congr rfl fun l _ => ?_
    rw [Finset.sum_eq_single q.2.1, Finset.sum_eq_single q.2.2] <;> simp +contextual
  · simp only [basisGradient, h0, Fin.mk_one, Matrix.cons_val, setAt, at_]
    rw [Finset.sum_eq_single q.1]
    · refine Finset.sum_congr rfl fun l _ => ?_
      rw [Finset.sum_eq_single q.2.2] <;> simp +contextual
    · simp +contextual
    · simp
  · simp only [basisGradient, h0, Fin.reduceFinMk, Matrix.cons_val, setAt, at_]
    rw [Finset.sum_eq_single q.1, Finset.sum_eq_single q.2.1] <;> simp +contextual

/-- If the metric terms are polynomials along the lines, the sum is the exact derivative. -/
theorem line_exact {x : Fin (N + 1) → ℝ} (hx : Function.Injective x) (hN : 1 ≤ N) {p : ℝ[X]} (hp : p.natDegree ≤ N)
    (f : Node N → ℝ) (q : Node N) (d : Fin 3) (hf : ∀ l, f (setAt q d l) = p.eval (x l)) :
    ∑ k, f k * basisGradient x q k d = (derivative p).eval (x (at_ q d)) := by
  rw [line_sum hx]
  simp only [hf]
  have := Lagrange.line_derivatives_reproduce hx p (lt_of_le_of_lt degree_le_natDegree (by
    exact_mod_cast Nat.lt_succ_of_le hp)) 1 hN (x (at_ q d))
  simpa using this

end MiniCFD.FR
