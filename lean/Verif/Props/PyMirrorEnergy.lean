import Verif.Props.PyMirrorLwa
import Verif.Props.PyViscosityEnergy
import Verif.Props.PyMirrorViscosity

/-! # C153: the constants of the energy-based viscosity in a mirror -/

namespace MiniCFD.PyMirrorEnergy
open MiniCFD.PyQuad MiniCFD.PyExpansion MiniCFD.PyDG MiniCFD.PyFR MiniCFD.PyLimiter MiniCFD.PyDissipation
open MiniCFD.PyViscosity MiniCFD.Spec.PyMirror MiniCFD.Spec.PyMirrorLimiter Polynomial
open MiniCFD.PyMirrorLimiter (Facing)
open MiniCFD.PyMirror (reorder reflect reorder_exact reflect_exact)
open MiniCFD.Spec.Gauss (ExactTo)
open MiniCFD.Spec.PyPoly (IsPair Orthogonal)

variable {p : ℕ} {c c' : Coordinate} {s s' : Setup p} {w σ : ℝ} {roots : (m : ℕ) → Rule m}

theorem gauss_of (hc : c.xLeft < c.xRight) (h : Built c s) (hk : s.kind = .legendreRoots) :
    ∃ rule : Rule p, ExactTo rule.apply (2 * p + 1) ∧ s.nodes = rule.x ∧ s.integrator = rule.integrator c := by
  cases h with
  | uniform _ _ h => rw [(lagrange_sane (by simp) hc h).2.2.1] at hk; cases hk
  | legendreRoots r e h =>
    obtain ⟨_, _, _, _, hi, hn, _⟩ := lagrange_sane (by simp) hc h
    exact ⟨r, e, hn, hi⟩
  | modal _ _ h => rw [(modal_sane hc h).2.1] at hk; cases hk
  | lobatto h =>
    obtain ⟨_, _, h⟩ := lobatto_cases h
    rw [(lagrange_sane (by simp) hc h).2.2.1] at hk; cases hk

theorem points_affine (hc : c.xLeft < c.xRight) (h : Built c s) (i : Fin (p + 1)) :
    s.points i = (c.xLeft + c.xRight) / 2 + s.nodes i * ((c.xRight - c.xLeft) / 2) := by
  obtain ⟨_, _, _, _, hx, _⟩ := c.eq_linear
  simp only [Setup.points, samplePoints, (h.sane hc).2, hx]

/-- Sorted nodes of Gauss, and their weights, change places in the mirror. -/
theorem nodes_mirror (hc : c.xLeft < c.xRight) (ho : Opposite w c c') (h : Built c s) (h' : Built c' s')
    (hk : s.kind = .legendreRoots) (hk' : s'.kind = .legendreRoots) (hs : StrictMono s.points) (hs' : StrictMono s'.points)
    (i : Fin (p + 1)) : s'.points i.rev = w - s.points i ∧ s'.integrator.weights i.rev = s.integrator.weights i := by
  have hc' : c'.xLeft < c'.xRight := by rw [ho.left, ho.right]; linarith
  obtain ⟨r, e, hn, hi⟩ := gauss_of hc h hk
  obtain ⟨r', e', hn', hi'⟩ := gauss_of hc' h' hk'
  have hm : StrictMono r.x := by
    intro a b hab
    have := hs hab
    rw [points_affine hc h, points_affine hc h, hn] at this
    by_contra hcon
    have := mul_le_mul_of_nonneg_right (not_lt.1 hcon) (show 0 ≤ (c.xRight - c.xLeft) / 2 by linarith)
    linarith
  have hm' : StrictMono r'.x := by
    intro a b hab
    have := hs' hab
    rw [points_affine hc' h', points_affine hc' h', hn'] at this
    by_contra hcon
    have := mul_le_mul_of_nonneg_right (not_lt.1 hcon) (show 0 ≤ (c'.xRight - c'.xLeft) / 2 by linarith)
    linarith
  have hrev : StrictMono (reorder (reflect r) Fin.revPerm).x := by
    intro a b hab
    show -r.x a.rev < -r.x b.rev
    have := hm (Fin.rev_lt_rev.2 hab)
    linarith
  have er := roots_unique e' (reorder_exact (reflect_exact e) Fin.revPerm) hm' hrev
  have ex : r'.x i.rev = -r.x i := by
    rw [er]; show -r.x i.rev.rev = _; rw [Fin.rev_rev]
  have ew : r'.w i.rev = r.w i := by
    rw [er]; show r.w i.rev.rev = _; rw [Fin.rev_rev]
  constructor
  · rw [points_affine hc h, points_affine hc' h', hn, hn', ex, ho.left, ho.right]; ring
  · obtain ⟨_, _, hj, _⟩ := c.eq_linear
    obtain ⟨_, _, hj', _⟩ := c'.eq_linear
    rw [hi, hi']
    simp only [Rule.integrator, hj, hj', ew, ex, ho.left, ho.right]
    congr 1
    ring

/-! ### The energy of the oscillation -/

theorem half_mirror (hσ : σ ^ 2 = 1) {points points' values values' : Fin (p + 1) → ℝ} {f f' : ℝ → ℝ}
    (hp : ∀ i : Fin (p + 1), points' i.rev = w - points i) (hv : ∀ i : Fin (p + 1), values' i.rev = σ * values i)
    (hf : f' = imageOf σ w f) (i : Fin (p + 1)) :
    halfJumps points' values' f' i.rev ^ 2 = halfJumps points values f i ^ 2 := by
  rw [half_sq, half_sq, hv, hp, hf]
  have e : 2 * ((i.rev : Fin (p + 1)) : ℕ) = p ↔ 2 * (i : ℕ) = p := by rw [Fin.val_rev]; omega
  have d : (σ * values i - imageOf σ w f (w - points i)) ^ 2 = (values i - f (points i)) ^ 2 := by
    unfold imageOf
    rw [sub_sub_cancel]
    linear_combination (values i - f (points i)) ^ 2 * hσ
  simp only [e, d]

theorem energy_mirror {jumps jumps' : Fin (p + 1) → ℝ}
    (hw : ∀ i : Fin (p + 1), s'.integrator.weights i.rev = s.integrator.weights i)
    (hj : ∀ i : Fin (p + 1), jumps' i.rev ^ 2 = jumps i ^ 2) :
    jumpsToEnergy s' jumps' (lowerHalf p) = jumpsToEnergy s jumps (upperHalf p) ∧
      jumpsToEnergy s' jumps' (upperHalf p) = jumpsToEnergy s jumps (lowerHalf p) := by
  simp only [lower_sum, upper_sum]
  constructor
  · rw [← Equiv.sum_comp Fin.revPerm]
    refine Finset.sum_congr rfl fun i _ => ?_
    rw [Fin.revPerm_apply, hw, hj]
    have e : 2 * ((i.rev : Fin (p + 1)) : ℕ) ≤ p ↔ p ≤ 2 * (i : ℕ) := by rw [Fin.val_rev]; omega
    simp only [e]
  · rw [← Equiv.sum_comp Fin.revPerm]
    refine Finset.sum_congr rfl fun i _ => ?_
    rw [Fin.revPerm_apply, hw, hj]
    have e : p ≤ 2 * ((i.rev : Fin (p + 1)) : ℕ) ↔ 2 * (i : ℕ) ≤ p := by rw [Fin.val_rev]; omega
    simp only [e]

/-- Two rules of Gauss with two points: the points of one are those of the other with the sign changed. -/
theorem two_points (exact : ExactTo (roots 1).apply 3) : (roots 1).x 1 = -(roots 1).x 0 := by
  have h0 := (roots_of_legendre (m := 1) exact 0).1
  have h1 := (roots_of_legendre (m := 1) exact 1).1
  have hne : (roots 1).x 0 ≠ (roots 1).x 1 := fun h => absurd (gauss_injective (p := 1) exact h) (by decide)
  rw [Vincent.leg_eval] at h0 h1
  simp only [Vincent.legendre] at h0 h1
  have : ((roots 1).x 1 - (roots 1).x 0) * ((roots 1).x 1 + (roots 1).x 0) = 0 := by
    norm_num at h0 h1
    linear_combination (1 / 3) * (h1 - h0)
  rcases mul_eq_zero.1 this with h | h
  · exact absurd (by linarith) hne
  · linarith

/-- The line that is borrowed. -/
theorem low_mirror (exact : ExactTo (roots 1).apply 3) {b b' : Neighbour p ℝ} (hb : Facing σ w b b') :
    ∃ l, low roots b = some l ∧ low roots b' = some (imageOf σ w l) := by
  obtain ⟨d, d', hd, ho, hB, hB'⟩ := hb.elements
  have hd' : d'.xLeft < d'.xRight := by rw [ho.left, ho.right]; linarith
  obtain ⟨l, e, ⟨α, β, hl⟩, hi⟩ := low_line exact hd b hB
  obtain ⟨l', e', ⟨α', β', hl'⟩, hi'⟩ := low_line exact hd' b' hB'
  refine ⟨l, e, e'.trans ?_⟩
  congr 1
  have hx := two_points exact
  have hne : (roots 1).x 0 ≠ 0 := by
    intro h
    rw [h, neg_zero] at hx
    exact absurd (gauss_injective (p := 1) exact (h.trans hx.symm)) (by decide)
  obtain ⟨_, _, _, _, hg, _⟩ := d.eq_linear
  obtain ⟨_, _, _, _, hg', _⟩ := d'.eq_linear
  have a0 := hi 0
  have a1 := hi 1
  have b0 := hi' 0
  have b1 := hi' 1
  rw [hl', hg', ho.left, ho.right, hb.shift, hb.value, imageOf] at b0 b1
  rw [hl, hg] at a0 a1
  rw [hx] at a1 b1
  have p0 : w - ((w - d.xRight + (w - d.xLeft)) / 2 + (roots 1).x 0 * ((w - d.xLeft - (w - d.xRight)) / 2) + -b.shift) =
      (d.xLeft + d.xRight) / 2 + -(roots 1).x 0 * ((d.xRight - d.xLeft) / 2) + b.shift := by ring
  have p1 : w - ((w - d.xRight + (w - d.xLeft)) / 2 + -(roots 1).x 0 * ((w - d.xLeft - (w - d.xRight)) / 2) + -b.shift) =
      (d.xLeft + d.xRight) / 2 + (roots 1).x 0 * ((d.xRight - d.xLeft) / 2) + b.shift := by ring
  rw [p0, ← a1] at b0
  rw [p1, ← a0] at b1
  have hβ : β' = -(σ * β) := by
    have : (β' + σ * β) * ((roots 1).x 0 * (d.xRight - d.xLeft)) = 0 := by linear_combination b0 - b1
    rcases mul_eq_zero.1 this with h | h
    · linarith
    · rcases mul_eq_zero.1 h with h | h
      · exact absurd h hne
      · linarith
  funext x
  rw [imageOf, hl, hl', hβ]
  rw [hβ] at b0
  linear_combination b0

theorem halfEnergy_mirror (hσ : σ ^ 2 = 1) (exact : ExactTo (roots 1).apply 3) {values values' : Fin (p + 1) → ℝ}
    (hp : ∀ i : Fin (p + 1), s'.points i.rev = w - s.points i)
    (hw : ∀ i : Fin (p + 1), s'.integrator.weights i.rev = s.integrator.weights i)
    (hv : ∀ i : Fin (p + 1), values' i.rev = σ * values i) {b b' : Option (Neighbour p ℝ)} (hb : Option.Rel (Facing σ w) b b') :
    halfEnergy roots s' values' (lowerHalf p) b' = halfEnergy roots s values (upperHalf p) b ∧
      halfEnergy roots s' values' (upperHalf p) b' = halfEnergy roots s values (lowerHalf p) b := by
  cases hb with
  | none => exact ⟨rfl, rfl⟩
  | some hb =>
    obtain ⟨l, e, e'⟩ := low_mirror exact hb
    obtain ⟨h1, h2⟩ := energy_mirror hw (half_mirror hσ hp hv (f := l) rfl)
    obtain ⟨h3, h4⟩ := energy_mirror hw (half_mirror hσ hp hv hb.value)
    unfold halfEnergy
    simp only [e, e', Option.map_some, h1, h2, h3, h4, and_self]

/-! ### The rate -/

theorem spent_mirror (hσ : σ ^ 2 = 1) (ho : Opposite w c c') (U : ℝ[X]) (left right : Option ℝ) :
    spent c' (C σ * U.comp (C w - X)) right left = spent c U left right := by
  have e0 : ∀ x, (C σ * U.comp (C w - X)).eval x = σ * U.eval (w - x) := fun x => by simp
  have d1 : derivative (C σ * U.comp (C w - X)) = C (-σ) * (derivative U).comp (C w - X) := by
    simp [derivative_comp]
  have d2 : derivative (C (-σ) * (derivative U).comp (C w - X)) = C σ * (derivative (derivative U)).comp (C w - X) := by
    simp [derivative_comp]
  have e1 : ∀ x, (derivative (C σ * U.comp (C w - X))).eval x = -(σ * (derivative U).eval (w - x)) := fun x => by
    rw [d1]; simp
  have e2 : ∀ x, (derivative^[2] (C σ * U.comp (C w - X))).eval x = σ * (derivative^[2] U).eval (w - x) := fun x => by
    simp only [Function.iterate_succ, Function.iterate_zero, Function.comp, id_eq]
    rw [d1, d2]; simp
  have hint : ∫ x in c'.xLeft..c'.xRight, (derivative (C σ * U.comp (C w - X))).eval x ^ 2 =
      ∫ x in c.xLeft..c.xRight, (derivative U).eval x ^ 2 := by
    have : ∀ x, (derivative (C σ * U.comp (C w - X))).eval x ^ 2 = (derivative U).eval (w - x) ^ 2 := fun x => by
      rw [e1]; linear_combination (derivative U).eval (w - x) ^ 2 * hσ
    simp only [this]
    rw [intervalIntegral.integral_comp_sub_left (fun x => (derivative U).eval x ^ 2), ho.left, ho.right, sub_sub_cancel,
      sub_sub_cancel]
  have sl : slopeLeft (C σ * U.comp (C w - X)) c'.xLeft right = -(σ * slopeRight U c.xRight right) := by
    cases right with
    | none => simp [slopeLeft, slopeRight]
    | some δ =>
      simp only [slopeLeft, slopeRight, e0, e1, e2, ho.left, sub_sub_cancel]
      ring
  have sr : slopeRight (C σ * U.comp (C w - X)) c'.xRight left = -(σ * slopeLeft U c.xLeft left) := by
    cases left with
    | none => simp [slopeLeft, slopeRight]
    | some δ =>
      simp only [slopeLeft, slopeRight, e0, e1, e2, ho.right, sub_sub_cancel]
      ring
  unfold spent
  rw [hint, sl, sr, e0, e0, ho.left, ho.right, sub_sub_cancel, sub_sub_cancel]
  linear_combination (U.eval c.xRight * slopeRight U c.xRight right - U.eval c.xLeft * slopeLeft U c.xLeft left) * hσ

theorem rate_mirror (hσ : σ ^ 2 = 1) (hc : c.xLeft < c.xRight) (ho : Opposite w c c') (h : Built c s) (h' : Built c' s')
    (hk : s.kind = .legendreRoots) (hk' : s'.kind = .legendreRoots) {g : Correction} (hg : IsPair (p + 1) g.value g.gradient)
    (orthogonal : Orthogonal (fun x => (g.value x).2) p) {values values' : Fin (p + 1) → ℝ}
    (hp : ∀ i : Fin (p + 1), s'.points i.rev = w - s.points i) (hv : ∀ i : Fin (p + 1), values' i.rev = σ * values i)
    {left right left' right' : Option (Setup p)} (hl : left'.map (fun l => l.coordinate.length) = right.map fun r => r.coordinate.length)
    (hr : right'.map (fun l => l.coordinate.length) = left.map fun r => r.coordinate.length) :
    rate (matrices g s' left' right') s' values' = rate (matrices g s left right) s values := by
  have hc' : c'.xLeft < c'.xRight := by rw [ho.left, ho.right]; linarith
  obtain ⟨U, hU, hUv⟩ := through hc h (by simp [hk]) values
  set U' := C σ * U.comp (C w - X) with hU'
  have hUd : U'.natDegree ≤ p := by
    refine (natDegree_C_mul_le _ _).trans (natDegree_comp_le.trans ?_)
    have : (C w - X : ℝ[X]).natDegree ≤ 1 := (natDegree_sub_le _ _).trans (by simp)
    nlinarith
  have hUv' : ∀ i, U'.eval (s'.points i) = values' i := by
    intro i
    obtain ⟨j, rfl⟩ : ∃ j : Fin (p + 1), i = j.rev := ⟨i.rev, (Fin.rev_rev i).symm⟩
    rw [hp, hv, hU', ← hUv]
    simp
  have f := rate_form hc h hg (.legendre hk orthogonal) left right U hU
  have f' := rate_form hc' h' hg (.legendre hk' orthogonal) left' right' U' hUd
  simp only [hUv] at f
  simp only [hUv'] at f'
  have hlen : s'.coordinate.length = s.coordinate.length := by
    rw [(h.sane hc).2, (h'.sane hc').2, c.eq_linear.1, c'.eq_linear.1, ho.left, ho.right]; ring
  have m1 : (left'.map fun l => (l.coordinate.length + s'.coordinate.length) / 2) =
      right.map fun r => (s.coordinate.length + r.coordinate.length) / 2 := by
    have := congrArg (Option.map fun a => (a + s.coordinate.length) / 2) hl
    simp only [Option.map_map, Function.comp_def] at this
    rw [hlen, this]
    congr 1
    funext r
    rw [add_comm]
  have m2 : (right'.map fun r => (s'.coordinate.length + r.coordinate.length) / 2) =
      left.map fun l => (l.coordinate.length + s.coordinate.length) / 2 := by
    have := congrArg (Option.map fun a => (s.coordinate.length + a) / 2) hr
    simp only [Option.map_map, Function.comp_def] at this
    rw [hlen, this]
    congr 1
    funext r
    rw [add_comm]
  rw [m1, m2, hU', spent_mirror hσ ho, ← f] at f'
  unfold rate
  simp only [f']

/-! ### The constant -/

theorem max_mirror {radius radius' : ℝ → ℝ} (hrad : ∀ u, radius' (σ * u) = radius u) {st st' : State p ℝ}
    (hlen : s'.coordinate.length = s.coordinate.length) (hv : ∀ i : Fin (p + 1), st'.coeff i.rev = σ * st.coeff i) :
    maxNu radius' s' st' = maxNu radius s st := by
  unfold maxNu
  rw [hlen]
  congr 1
  have e : (List.finRange (p + 1)).foldl (fun a i => max a (radius (st.coeff i))) 0 =
      ((List.finRange (p + 1)).map Fin.rev).foldl (fun a i => max a (radius' (st'.coeff i))) 0 := by
    rw [List.foldl_map]
    simp only [hv, hrad]
  rw [e]
  have hperm : ((List.finRange (p + 1)).map Fin.rev).Perm (List.finRange (p + 1)) := by
    rw [← List.finRange_reverse]
    exact List.reverse_perm _
  exact (hperm.foldl_eq' (f := fun a i => max a (radius' (st'.coeff i)))
    (fun x _ y _ z => max_right_comm z (radius' (st'.coeff x)) (radius' (st'.coeff y))) 0).symm

/-- C153: The constant of the image is the constant. -/
theorem constant_mirror (hσ : σ ^ 2 = 1) (exact : ExactTo (roots 1).apply 3) (tau : ℝ) {radius radius' : ℝ → ℝ}
    (hrad : ∀ u, radius' (σ * u) = radius u) (hc : c.xLeft < c.xRight) (ho : Opposite w c c') (h : Built c s)
    (h' : Built c' s') (hk : s.kind = .legendreRoots) (hk' : s'.kind = .legendreRoots) (hs : StrictMono s.points)
    (hs' : StrictMono s'.points) {g : Correction} (hg : IsPair (p + 1) g.value g.gradient)
    (orthogonal : Orthogonal (fun x => (g.value x).2) p) {st st' : State p ℝ} (hr : Reached s st) (hr' : Reached s' st')
    (hv : s'.value st' = imageOf σ w (s.value st)) {left right left' right' : Option (Neighbour p ℝ)}
    (hl : Option.Rel (Facing σ w) right left') (hrr : Option.Rel (Facing σ w) left right') :
    PyViscosity.constantCoeff roots tau radius' (matrices g s' (left'.map fun b => b.setup) (right'.map fun b => b.setup)) s' st' left' right' =
      PyViscosity.constantCoeff roots tau radius (matrices g s (left.map fun b => b.setup) (right.map fun b => b.setup)) s st left right := by
  have hc' : c'.xLeft < c'.xRight := by rw [ho.left, ho.right]; linarith
  have hp := fun i => (nodes_mirror hc ho h h' hk hk' hs hs' i).1
  have hw := fun i => (nodes_mirror hc ho h h' hk hk' hs hs' i).2
  have hcoeff : ∀ i : Fin (p + 1), st'.coeff i.rev = σ * st.coeff i := by
    intro i
    rw [← value_at_points hc' h' (by simp [hk']) hr', ← value_at_points hc h (by simp [hk]) hr, hv, hp, imageOf, sub_sub_cancel]
  have hlen : s'.coordinate.length = s.coordinate.length := by
    rw [(h.sane hc).2, (h'.sane hc').2, c.eq_linear.1, c'.eq_linear.1, ho.left, ho.right]; ring
  have lengths : ∀ {b b' : Option (Neighbour p ℝ)}, Option.Rel (Facing σ w) b b' →
      (b'.map fun b => b.setup).map (fun l => l.coordinate.length) = (b.map fun b => b.setup).map fun l => l.coordinate.length := by
    intro b b' hb
    cases hb with
    | none => rfl
    | some hb =>
      obtain ⟨d, d', hd, hod, hB, hB'⟩ := hb.elements
      have hd' : d'.xLeft < d'.xRight := by rw [hod.left, hod.right]; linarith
      simp only [Option.map_some]
      rw [(hB.sane hd).2, (hB'.sane hd').2, d.eq_linear.1, d'.eq_linear.1, hod.left, hod.right]
      congr 1
      ring
  have hrate := rate_mirror hσ hc ho h h' hk hk' hg orthogonal hp hcoeff (lengths hl) (lengths hrr)
  have hosc : oscillationEnergy roots s' st' left' right' = oscillationEnergy roots s st left right := by
    have hval : ∀ i : Fin (p + 1), nodeDerivatives s' st' i.rev 0 = σ * nodeDerivatives s st i 0 := hcoeff
    unfold oscillationEnergy
    dsimp only
    rw [(halfEnergy_mirror hσ exact (s := s) (s' := s') hp hw (values := fun i => nodeDerivatives s st i 0)
      (values' := fun i => nodeDerivatives s' st' i 0) hval hl).1,
      (halfEnergy_mirror hσ exact (s := s) (s' := s') hp hw (values := fun i => nodeDerivatives s st i 0)
      (values' := fun i => nodeDerivatives s' st' i 0) hval hrr).2]
    cases halfEnergy roots s (fun i => nodeDerivatives s st i 0) (upperHalf p) right <;>
      cases halfEnergy roots s (fun i => nodeDerivatives s st i 0) (lowerHalf p) left <;>
      simp [add_comm]
  unfold PyViscosity.constantCoeff
  simp only [hk, hk', hrate, hosc, max_mirror hrad hlen hcoeff]

/-! ### On a grid -/

section Grid
variable {n : ℕ} {co co' : Fin (n + 2) → Coordinate} {grid grid' : Grid p n ℝ}

/-- Element `i.rev` of the second grid is the image of element `i` of the first one, on sorted nodes of Gauss; both grids
are periodic, or neither is. -/
structure Twins (σ w : ℝ) (co co' : Fin (n + 2) → Coordinate) (grid grid' : Grid p n ℝ) : Prop where
  pos : ∀ i, (co i).xLeft < (co i).xRight
  opposite : ∀ i, Opposite w (co i) (co' i.rev)
  built : ∀ i, Built (co i) (grid.cells i).setup
  built' : ∀ i, Built (co' i) (grid'.cells i).setup
  kind : ∀ i, (grid.cells i).setup.kind = .legendreRoots
  kind' : ∀ i, (grid'.cells i).setup.kind = .legendreRoots
  sorted : ∀ i, StrictMono (grid.cells i).setup.points
  sorted' : ∀ i, StrictMono (grid'.cells i).setup.points
  reached : ∀ i, Reached (grid.cells i).setup (grid.cells i).state
  reached' : ∀ i, Reached (grid'.cells i).setup (grid'.cells i).state
  value : ∀ i, (grid'.cells i.rev).setup.value (grid'.cells i.rev).state =
    imageOf σ w ((grid.cells i).setup.value (grid.cells i).state)
  boundary : grid'.boundary = none ↔ grid.boundary = none

theorem Twins.facing (h : Twins σ w co co' grid grid') (i : Fin (n + 2)) {t t' : ℝ} (ht : t' = -t) :
    Facing σ w (⟨(grid.cells i).setup, (grid.cells i).state, t⟩ : Neighbour p ℝ)
      ⟨(grid'.cells i.rev).setup, (grid'.cells i.rev).state, t'⟩ := by
  refine ⟨⟨co i, co' i.rev, h.pos i, h.opposite i, h.built i, h.built' _⟩, by simp [h.kind, h.kind'], ht, ?_⟩
  funext x
  show (grid'.cells i.rev).setup.value (grid'.cells i.rev).state (x - t') =
    σ * (grid.cells i).setup.value (grid.cells i).state (w - x - t)
  rw [h.value, imageOf, ht]
  congr 2
  ring

theorem Twins.length (h : Twins σ w co co' grid grid') : gridLength grid' = gridLength grid := by
  have h0 := h.opposite 0
  have h1 := h.opposite (Fin.last _)
  have p0 : (co' (Fin.rev 0)).xLeft < (co' (Fin.rev 0)).xRight := by rw [h0.left, h0.right]; linarith [h.pos 0]
  have p1 : (co' (Fin.rev (Fin.last _))).xLeft < (co' (Fin.rev (Fin.last _))).xRight := by
    rw [h1.left, h1.right]; linarith [h.pos (Fin.last _)]
  rw [Fin.rev_zero] at h0 p0
  rw [Fin.rev_last] at h1 p1
  unfold gridLength
  rw [((h.built _).sane (h.pos _)).2, ((h.built _).sane (h.pos _)).2, ((h.built' _).sane p0).2, ((h.built' _).sane p1).2,
    h0.right, h1.left]
  ring

theorem rev_next {i : Fin (n + 2)} (hi : i ≠ Fin.last _) : i.rev - 1 = (i + 1).rev := by
  have hl := Fin.val_lt_last hi
  have h1 : i.rev ≠ 0 := fun h => hi (by rw [← Fin.rev_rev i, h, Fin.rev_zero])
  ext
  rw [Fin.val_sub_one_of_ne_zero h1, Fin.val_rev, Fin.val_rev, Fin.val_add_one_of_lt (Fin.lt_last_iff_ne_last.2 hi)]
  omega

theorem rev_previous {i : Fin (n + 2)} (hi : i ≠ 0) : i.rev + 1 = (i - 1).rev := by
  have h1 : i.rev ≠ Fin.last _ := fun h => hi (by rw [← Fin.rev_rev i, h, Fin.rev_last])
  have := rev_next h1
  rw [Fin.rev_rev] at this
  rw [this, Fin.rev_rev]

/-- The neighbours change sides. -/
theorem neighbours_mirror (h : Twins σ w co co' grid grid') (i : Fin (n + 2)) :
    Option.Rel (Facing σ w) (rightNeighbour grid i) (leftNeighbour grid' i.rev) ∧
      Option.Rel (Facing σ w) (leftNeighbour grid i) (rightNeighbour grid' i.rev) := by
  constructor
  · unfold leftNeighbour rightNeighbour leftOf rightOf
    by_cases hi : i = Fin.last _
    · subst hi
      rw [Fin.rev_last, if_pos rfl, if_pos rfl, if_pos rfl, if_pos rfl]
      by_cases hb : grid.boundary = none
      · rw [hb, h.boundary.2 hb]
        have := h.facing 0 (t := gridLength grid) (t' := -gridLength grid') (by rw [h.length])
        rw [Fin.rev_zero] at this
        exact .some this
      · have hb' := fun e => hb (h.boundary.1 e)
        obtain ⟨x, hx⟩ := Option.ne_none_iff_exists'.1 hb
        obtain ⟨x', hx'⟩ := Option.ne_none_iff_exists'.1 hb'
        rw [hx, hx']
        exact .none
    · have h1 : i.rev ≠ 0 := fun h => hi (by rw [← Fin.rev_rev i, h, Fin.rev_zero])
      rw [if_neg hi, if_neg hi, if_neg h1, if_neg h1, rev_next hi]
      exact .some (h.facing (i + 1) neg_zero.symm)
  · unfold leftNeighbour rightNeighbour leftOf rightOf
    by_cases hi : i = 0
    · subst hi
      rw [Fin.rev_zero, if_pos rfl, if_pos rfl, if_pos rfl, if_pos rfl]
      by_cases hb : grid.boundary = none
      · rw [hb, h.boundary.2 hb]
        have := h.facing (Fin.last _) (t := -gridLength grid) (t' := gridLength grid') (by rw [h.length, neg_neg])
        rw [Fin.rev_last] at this
        exact .some this
      · have hb' := fun e => hb (h.boundary.1 e)
        obtain ⟨x, hx⟩ := Option.ne_none_iff_exists'.1 hb
        obtain ⟨x', hx'⟩ := Option.ne_none_iff_exists'.1 hb'
        rw [hx, hx']
        exact .none
    · have h1 : i.rev ≠ Fin.last _ := fun h => hi (by rw [← Fin.rev_rev i, h, Fin.rev_last])
      rw [if_neg hi, if_neg hi, if_neg h1, if_neg h1, rev_previous hi]
      exact .some (h.facing (i - 1) neg_zero.symm)

/-- C153: On a grid, the constants of the images are those of the elements. -/
theorem coefficient_mirror (hσ : σ ^ 2 = 1) (exact : ExactTo (roots 1).apply 3) (tau : ℝ) {radius radius' : ℝ → ℝ}
    (hrad : ∀ u, radius' (σ * u) = radius u) {g : Correction} (hg : IsPair (p + 1) g.value g.gradient)
    (orthogonal : Orthogonal (fun x => (g.value x).2) p) (h : Twins σ w co co' grid grid') (i : Fin (n + 2)) :
    cellCoeff roots tau radius' g grid' i.rev = cellCoeff roots tau radius g grid i := by
  obtain ⟨h1, h2⟩ := neighbours_mirror h i
  have setups : ∀ (grid : Grid p n ℝ) (i : Fin (n + 2)), matricesOf g grid i = matrices g (grid.cells i).setup
      ((leftNeighbour grid i).map fun b => b.setup) ((rightNeighbour grid i).map fun b => b.setup) := by
    intro grid i
    unfold matricesOf leftNeighbour rightNeighbour
    rw [Option.map_map, Option.map_map]
    rfl
  unfold cellCoeff
  rw [setups, setups]
  exact constant_mirror hσ exact tau hrad (h.pos i) (h.opposite i) (h.built i) (h.built' _) (h.kind i) (h.kind' _) (h.sorted i)
    (h.sorted' _) hg orthogonal (h.reached i) (h.reached' _) (h.value i) h1 h2

/-- `_get_constant_coeff(grid, ·)` for the indices of the elements. -/
noncomputable def constants (roots : (m : ℕ) → Rule m) (tau : ℝ) (radius : ℝ → ℝ) (g : Correction) (grid : Grid p n ℝ) (i : ℕ) :
    Option ℝ :=
  if h : i < n + 2 then cellCoeff roots tau radius g grid ⟨i, h⟩ else none

/-- C153: The quadratic viscosity that is generated on the image of the grid, where the images of the troubled elements are
reported, is the image of the viscosity. -/
theorem viscosity_mirror (hσ : σ ^ 2 = 1) (exact : ExactTo (roots 1).apply 3) (tau : ℝ) {radius radius' : ℝ → ℝ}
    (hrad : ∀ u, radius' (σ * u) = radius u) {g : Correction} (hg : IsPair (p + 1) g.value g.gradient)
    (orthogonal : Orthogonal (fun x => (g.value x).2) p) (h : Twins σ w co co' grid grid') {periodic : Bool}
    {sites sites' : ℕ → Site} (hs : Chain periodic (n + 2) sites) (hs' : Chain periodic (n + 2) sites')
    (hm : PyMirrorViscosity.Mirrored w (n + 2) sites sites') {indices indices' : List ℕ}
    (hi : ∀ i ∈ indices, i < n + 2 ∧ (constants roots tau radius g grid i).isSome) (hi' : ∀ i ∈ indices', i < n + 2)
    (mem : ∀ i < n + 2, n + 2 - 1 - i ∈ indices' ↔ i ∈ indices) {cache cache' : Quadratic.Cache}
    (hv : Quadratic.Valid (n + 2) sites cache) (hv' : Quadratic.Valid (n + 2) sites' cache') :
    ∃ d d' new new', Quadratic.generate (constants roots tau radius g grid) (n + 2) sites indices cache = some (d, new) ∧
      Quadratic.generate (constants roots tau radius' g grid') (n + 2) sites' indices' cache' = some (d', new') ∧
      ∀ i < n + 2, d' (n + 2 - 1 - i) = (d i).map fun f x => f (w - x) := by
  refine PyMirrorViscosity.quadratic_mirror hs hs' hm ⟨mem, fun i hi => ?_, hi, hi'⟩ hv hv'
  unfold constants
  rw [dif_pos hi, dif_pos (by omega), ← coefficient_mirror hσ exact tau hrad hg orthogonal h]
  congr 1
  ext
  rw [Fin.val_rev]
  show n + 2 - 1 - i = n + 2 - (i + 1)
  omega

end Grid

theorem gauss2_sorted {c : Coordinate} {s : Setup 1} (hc : c.xLeft < c.xRight) (h : onLegendreRoots c gauss2 = some s) :
    StrictMono s.points := by
  rw [Fin.strictMono_iff_lt_succ]
  intro i
  have hn := (lagrange_sane (by simp) hc h).2.2.2.2.2.1
  have h0 : (0 : ℝ) < √(1 / 3) := by positivity
  fin_cases i
  show s.points 0 < s.points 1
  rw [points_affine hc (.legendreRoots _ gauss2_exact h), points_affine hc (.legendreRoots _ gauss2_exact h), hn]
  show _ + -√(1 / 3) * _ < _ + √(1 / 3) * _
  have := mul_pos h0 (show 0 < (c.xRight - c.xLeft) / 2 by linarith)
  linarith

/-- Two periodic elements that hold 1 and 3, and their image, which holds 3 and 1. -/
example : ∃ (v : PyPoly.Vincent) (grid grid' : Grid 1 0 ℝ), PyPoly.vincent 2 PyPoly.muGalerkin = some v ∧
    Twins 1 2 pair pair grid grid' ∧ (∀ x, (grid.cells 0).setup.value (grid.cells 0).state x = 1) ∧
    (∀ x, (grid.cells 1).setup.value (grid.cells 1).state x = 3) ∧
    cellCoeff (fun m => if h : m = 1 then h ▸ gauss2 else ⟨fun _ => 0, fun _ => 0⟩) 1 (fun _ => 1) (.vincent v) grid' 1 =
      cellCoeff (fun m => if h : m = 1 then h ▸ gauss2 else ⟨fun _ => 0, fun _ => 0⟩) 1 (fun _ => 1) (.vincent v) grid 0 := by
  obtain ⟨v, hv⟩ : ∃ v, PyPoly.vincent 2 PyPoly.muGalerkin = some v := ⟨_, if_pos (by omega)⟩
  choose m hm using fun i => (constructors (pair_pos i) gauss2_exact).2.1
  have bm : ∀ i, Built (pair i) (m i) := fun i => .legendreRoots _ gauss2_exact (hm i)
  have hk : ∀ i, (m i).kind = .legendreRoots := fun i => (lagrange_sane (by simp) (pair_pos i) (hm i)).2.2.1
  have hr : ∀ (i : Fin 2) (a : Fin 2 → ℝ), Reached (m i) (setCoeff (m i) a) := fun i a => .coeff a rfl
  let level : Fin 2 → ℝ := ![1, 3]
  let grid : Grid 1 0 ℝ := ⟨fun i => ⟨m i, setCoeff (m i) fun _ => level i, none⟩, none⟩
  let grid' : Grid 1 0 ℝ := ⟨fun i => ⟨m i, setCoeff (m i) fun _ => level i.rev, none⟩, none⟩
  have hval : ∀ (i : Fin 2) (a x : ℝ), (m i).value (setCoeff (m i) fun _ => a) x = a := by
    intro i a x
    rw [value_eq (pair_pos i) (bm i) (hr i _)]
    have := interpolate (pair_pos i) (bm i) (by simp [hk]) (C 1) (by simp) x
    simp only [eval_C, one_mul] at this
    simp only [smul_eq_mul, setCoeff]
    rw [← Finset.sum_mul, ← this, one_mul]
  have twins : Twins 1 2 pair pair grid grid' := by
    refine ⟨pair_pos, fun i => ?_, bm, bm, hk, hk, fun i => gauss2_sorted (pair_pos i) (hm i),
      fun i => gauss2_sorted (pair_pos i) (hm i), fun i => hr i _, fun i => hr i _, fun i => ?_, Iff.rfl⟩
    · fin_cases i <;> constructor <;> simp [pair, Coordinate.xLeft, Coordinate.xRight] <;> norm_num
    · funext x
      show (m i.rev).value (setCoeff (m i.rev) fun _ => level i.rev.rev) x =
        1 * (m i).value (setCoeff (m i) fun _ => level i) (2 - x)
      rw [hval, hval, Fin.rev_rev, one_mul]
  obtain ⟨h1, h2⟩ := fits_gauss (hk 0) hv
  refine ⟨v, grid, grid', hv, twins, hval 0 1, hval 1 3, ?_⟩
  refine coefficient_mirror (by norm_num) gauss2_exact 1 (fun _ => rfl) h1 ?_ twins 0
  cases h2 with
  | legendre _ ho => exact ho
  | lobatto hk' => rw [hk] at hk'; cases hk'

end MiniCFD.PyMirrorEnergy
