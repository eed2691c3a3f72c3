import Verif.Lemmas.PyDissipation
import Verif.Props.PyFRDG
import Verif.Model.PyEnergy

/-! # C112: the dissipation rate that the energy-based viscosity divides by -/

namespace MiniCFD.PyDissipation
open MiniCFD.PyQuad MiniCFD.PyExpansion MiniCFD.PyDG MiniCFD.PyFR Polynomial
open MiniCFD.Spec.PyPoly (IsPair Orthogonal)

variable {p n : ℕ} {c : Coordinate} {s : Setup p}

/-- The elements and correction functions for which flux reconstruction is a discontinuous Galerkin scheme: Legendre
nodes and orthogonality to degree below `p`, or Lobatto nodes, orthogonality to degree below `p - 1` and no slope at the
far end. -/
inductive Fits (s : Setup p) (g : Correction) : Prop where
  | legendre (nodes : s.kind = .legendreRoots) (orthogonal : Orthogonal (fun x => (g.value x).2) p)
  | lobatto (nodes : s.kind = .lobatto) (small : p ≤ 5) (orthogonal : Orthogonal (fun x => (g.value x).2) (p - 1))
      (slope : (g.gradient (-1)).2 = 0)

theorem Fits.nodal {g : Correction} (h : Fits s g) : s.kind ≠ .modal := by
  cases h <;> simp [*]

theorem Fits.lifts (hc : c.xLeft < c.xRight) (hb : Built c s) {g : Correction} (hg : IsPair (p + 1) g.value g.gradient)
    (h : Fits s g) (P : Pair c p g) : Lifts s c P := by
  cases h with
  | legendre hk ho => exact lifts_gauss hc hb (by simp [hk]) hg P ho
  | lobatto hk h5 ho hs => exact lifts_lobatto hc hb hk h5 hg P ho hs

/-- What the two faces contribute; `none` where there is no neighbour, otherwise the distance of the centers. -/
noncomputable def spent (c : Coordinate) (U : ℝ[X]) (left right : Option ℝ) : ℝ :=
  -(∫ x in c.xLeft..c.xRight, (derivative U).eval x ^ 2) + U.eval c.xRight * slopeRight U c.xRight right -
    U.eval c.xLeft * slopeLeft U c.xLeft left

/-- The quadratic form of the matrix: the diffusion inside the element and at its faces, the neighbours being zero. -/
theorem rate_form (hc : c.xLeft < c.xRight) (h : Built c s) {g : Correction} (hg : IsPair (p + 1) g.value g.gradient)
    (hf : Fits s g) (left right : Option (Setup p)) (U : ℝ[X]) (hU : U.natDegree ≤ p) :
    ∑ k, U.eval (s.points k) * ∑ j, s.integrator.weights k * (matrices g s left right).own k j * U.eval (s.points j) =
      spent c U (left.map fun l => (l.coordinate.length + s.coordinate.length) / 2)
        (right.map fun r => (s.coordinate.length + r.coordinate.length) / 2) := by
  obtain ⟨P⟩ := pair_exists hc hg
  obtain ⟨hL, hR⟩ := hf.lifts hc h hg P
  have hpts : ∀ j, s.integrator.points j = s.points j :=
    points_eq hc h (by cases hf with | legendre hk _ => exact .inl hk | lobatto hk _ _ _ => exact .inr hk)
  have hl5 : s.kind = .lobatto → p ≤ 5 := by
    intro e
    cases hf with
    | legendre hk _ => rw [hk] at e; cases e
    | lobatto _ h5 _ _ => exact h5
  have hint : s.integrator.integrate (fun x => (U * derivative (derivative U)).eval x) =
      ∫ x in c.xLeft..c.xRight, (U * derivative (derivative U)).eval x := by
    refine integrate_poly hc h hl5 _ (.inl ?_)
    have h1 := natDegree_derivative_le U
    have h2 := natDegree_derivative_le (derivative U)
    by_cases hz : p ≤ 1
    · have : derivative (derivative U) = 0 := by
        have h3 : (derivative U).natDegree = 0 := by omega
        rw [eq_C_of_natDegree_eq_zero h3, derivative_C]
      rw [this, mul_zero, natDegree_zero]
      exact Nat.zero_le _
    · exact natDegree_mul_le.trans (by omega)
  have hLU := hL U hU
  have hRU := hR U hU
  rw [by_parts] at hint
  simp only [Integrator.integrate_eq, hpts, smul_eq_mul, eval_mul] at hint hLU hRU
  have e : ∀ k, U.eval (s.points k) * ∑ j, s.integrator.weights k * (matrices g s left right).own k j * U.eval (s.points j) =
      s.integrator.weights k * (U.eval (s.points k) * (derivative (derivative U)).eval (s.points k)) +
      s.integrator.weights k * (U.eval (s.points k) * (derivative P.L).eval (s.points k)) *
        (slopeLeft U c.xLeft (left.map fun l => (l.coordinate.length + s.coordinate.length) / 2) -
          (derivative U).eval c.xLeft) +
      s.integrator.weights k * (U.eval (s.points k) * (derivative P.R).eval (s.points k)) *
        (slopeRight U c.xRight (right.map fun r => (s.coordinate.length + r.coordinate.length) / 2) -
          (derivative U).eval c.xRight) := by
    intro k
    have := own_apply hc h hf.nodal P left right U hU k
    simp only [mul_assoc, ← Finset.mul_sum]
    rw [this]
    simp only [Function.iterate_succ, Function.iterate_zero, Function.comp, id_eq]
    ring
  simp only [e, Finset.sum_add_distrib, ← Finset.sum_mul, hint, hLU, hRU, spent]
  have hsq : ∫ x in c.xLeft..c.xRight, (derivative U).eval x ^ 2 =
      ∫ x in c.xLeft..c.xRight, (derivative U).eval x * (derivative U).eval x := by simp only [sq]
  rw [hsq]
  ring

/-- A polynomial of degree at most five about the center of an interval, and what its faces see. -/
theorem centered {l h : ℝ} (U : ℝ[X]) (hU : U.natDegree ≤ 5) : ∃ y : Fin 6 → ℝ, (∀ i : Fin 6, U.natDegree < i → y i = 0) ∧
    (∀ x, U.eval x = y 0 + y 1 * (x - (l + h / 2)) + y 2 * (x - (l + h / 2)) ^ 2 + y 3 * (x - (l + h / 2)) ^ 3 +
      y 4 * (x - (l + h / 2)) ^ 4 + y 5 * (x - (l + h / 2)) ^ 5) := by
  set m := l + h / 2
  set Y := U.comp (X + C m) with hY
  have hYd : Y.natDegree = U.natDegree := by rw [hY, natDegree_comp, natDegree_X_add_C, mul_one]
  refine ⟨fun i => Y.coeff i, fun i hi => coeff_eq_zero_of_natDegree_lt (by omega), fun x => ?_⟩
  have h1 : U.eval x = Y.eval (x - m) := by rw [hY, eval_comp]; simp
  rw [h1, eval_eq_sum_range' (by omega : Y.natDegree < 6)]
  simp [Finset.sum_range_succ]

theorem centered_derivatives {m : ℝ} {U : ℝ[X]} {y : Fin 6 → ℝ}
    (hy : ∀ x, U.eval x = y 0 + y 1 * (x - m) + y 2 * (x - m) ^ 2 + y 3 * (x - m) ^ 3 + y 4 * (x - m) ^ 4 + y 5 * (x - m) ^ 5) :
    (∀ x, (derivative U).eval x = y 1 + 2 * y 2 * (x - m) + 3 * y 3 * (x - m) ^ 2 + 4 * y 4 * (x - m) ^ 3 +
      5 * y 5 * (x - m) ^ 4) ∧
    (∀ x, (derivative^[2] U).eval x = 2 * y 2 + 6 * y 3 * (x - m) + 12 * y 4 * (x - m) ^ 2 + 20 * y 5 * (x - m) ^ 3) := by
  have hs : ∀ x, HasDerivAt (fun x => x - m) 1 x := fun x => (hasDerivAt_id x).sub_const m
  have h1 : ∀ x, (derivative U).eval x = y 1 + 2 * y 2 * (x - m) + 3 * y 3 * (x - m) ^ 2 + 4 * y 4 * (x - m) ^ 3 +
      5 * y 5 * (x - m) ^ 4 := by
    intro x
    have h1 := U.hasDerivAt x
    rw [show (fun x => U.eval x) = _ from _root_.funext hy] at h1
    refine h1.unique ?_
    refine (((((((hs x).const_mul (y 1)).const_add (y 0)).add (((hs x).pow 2).const_mul (y 2))).add
      (((hs x).pow 3).const_mul (y 3))).add (((hs x).pow 4).const_mul (y 4))).add
      (((hs x).pow 5).const_mul (y 5))).congr_deriv ?_
    push_cast
    ring
  refine ⟨h1, fun x => ?_⟩
  have h2 := (derivative U).hasDerivAt x
  rw [show (fun x => (derivative U).eval x) = _ from _root_.funext h1] at h2
  rw [show derivative^[2] U = derivative (derivative U) from rfl]
  refine h2.unique ?_
  refine ((((((hs x).const_mul (2 * y 2)).const_add (y 1)).add (((hs x).pow 2).const_mul (3 * y 3))).add
    (((hs x).pow 3).const_mul (4 * y 4))).add (((hs x).pow 4).const_mul (5 * y 5))).congr_deriv ?_
  push_cast
  ring

theorem centered_integral {l h : ℝ} {U : ℝ[X]} {y : Fin 6 → ℝ}
    (hd : ∀ x, (derivative U).eval x = y 1 + 2 * y 2 * (x - (l + h / 2)) + 3 * y 3 * (x - (l + h / 2)) ^ 2 +
      4 * y 4 * (x - (l + h / 2)) ^ 3 + 5 * y 5 * (x - (l + h / 2)) ^ 4) :
    ∫ x in l..(l + h), (derivative U).eval x ^ 2 = 2 * (y 1 ^ 2 * (h / 2) + (4 * y 2 ^ 2 + 6 * y 1 * y 3) * (h / 2) ^ 3 / 3 +
      (9 * y 3 ^ 2 + 16 * y 2 * y 4 + 10 * y 1 * y 5) * (h / 2) ^ 5 / 5 + (16 * y 4 ^ 2 + 30 * y 3 * y 5) * (h / 2) ^ 7 / 7 +
      25 * y 5 ^ 2 * (h / 2) ^ 9 / 9) := by
  set m := l + h / 2 with hm
  have hder : ∀ x, HasDerivAt (fun x => y 1 ^ 2 * (x - m) + 4 * y 1 * y 2 / 2 * (x - m) ^ 2 +
      (4 * y 2 ^ 2 + 6 * y 1 * y 3) / 3 * (x - m) ^ 3 + (12 * y 2 * y 3 + 8 * y 1 * y 4) / 4 * (x - m) ^ 4 +
      (9 * y 3 ^ 2 + 16 * y 2 * y 4 + 10 * y 1 * y 5) / 5 * (x - m) ^ 5 + (24 * y 3 * y 4 + 20 * y 2 * y 5) / 6 * (x - m) ^ 6 +
      (16 * y 4 ^ 2 + 30 * y 3 * y 5) / 7 * (x - m) ^ 7 + 40 * y 4 * y 5 / 8 * (x - m) ^ 8 + 25 * y 5 ^ 2 / 9 * (x - m) ^ 9)
      ((derivative U).eval x ^ 2) x := by
    intro x
    have hs : HasDerivAt (fun x => x - m) 1 x := (hasDerivAt_id x).sub_const m
    refine (((((((((hs.const_mul _).add ((hs.pow 2).const_mul _)).add ((hs.pow 3).const_mul _)).add
      ((hs.pow 4).const_mul _)).add ((hs.pow 5).const_mul _)).add ((hs.pow 6).const_mul _)).add
      ((hs.pow 7).const_mul _)).add ((hs.pow 8).const_mul _)).add ((hs.pow 9).const_mul _)).congr_deriv ?_
    rw [hd]
    push_cast
    ring
  rw [intervalIntegral.integral_eq_sub_of_hasDerivAt (fun x _ => hder x)
    (((derivative U).continuous.pow 2).intervalIntegrable _ _), hm]
  ring

/-- Up to degree four the form is negative for every polynomial but zero, as long as all elements have the same length. -/
theorem spent_neg (hc : c.xLeft < c.xRight) {U : ℝ[X]} (hU : U.natDegree ≤ 4) (h0 : U ≠ 0) (left right : Option ℝ)
    (hl : ∀ δ ∈ left, δ = c.xRight - c.xLeft) (hr : ∀ δ ∈ right, δ = c.xRight - c.xLeft) (hlr : left.isSome ∨ right.isSome) :
    spent c U left right < 0 := by
  obtain ⟨l, hl'⟩ : ∃ l, c.xLeft = l := ⟨_, rfl⟩
  obtain ⟨h, hh'⟩ : ∃ h, c.xRight = l + h := ⟨c.xRight - l, by ring⟩
  have hpos : 0 < h := by linarith
  have eh : c.xRight - c.xLeft = h := by linarith
  rw [eh] at hl hr
  obtain ⟨y, hz, hy⟩ := centered (l := l) (h := h) U (by omega)
  obtain ⟨hd, hdd⟩ := centered_derivatives hy
  have y5 : y 5 = 0 := hz 5 (by show _ < 5; omega)
  have hnz : ¬(y 0 = 0 ∧ y 1 = 0 ∧ y 2 = 0 ∧ y 3 = 0 ∧ y 4 = 0) := by
    rintro ⟨e0, e1, e2, e3, e4⟩
    apply h0
    refine Polynomial.funext fun x => ?_
    rw [hy, e0, e1, e2, e3, e4, y5]
    simp
  have hη : 0 < h / 2 := by linarith
  obtain ⟨η, hηdef⟩ : ∃ η, h / 2 = η := ⟨_, rfl⟩
  rw [hηdef] at hη
  have hh2 : h = 2 * η := by linarith
  obtain ⟨z1, hz1⟩ : ∃ z, z = y 1 * η := ⟨_, rfl⟩
  obtain ⟨z2, hz2⟩ : ∃ z, z = y 2 * η ^ 2 := ⟨_, rfl⟩
  obtain ⟨z3, hz3⟩ : ∃ z, z = y 3 * η ^ 3 := ⟨_, rfl⟩
  obtain ⟨z4, hz4⟩ : ∃ z, z = y 4 * η ^ 4 := ⟨_, rfl⟩
  have hne : η ≠ 0 := hη.ne'
  have hnz' : ¬(y 0 = 0 ∧ z1 = 0 ∧ z2 = 0 ∧ z3 = 0 ∧ z4 = 0) := by
    rintro ⟨e0, e1, e2, e3, e4⟩
    refine hnz ⟨e0, ?_, ?_, ?_, ?_⟩
    · exact (mul_eq_zero.1 (hz1 ▸ e1)).resolve_right hne
    · exact (mul_eq_zero.1 (hz2 ▸ e2)).resolve_right (pow_ne_zero _ hne)
    · exact (mul_eq_zero.1 (hz3 ▸ e3)).resolve_right (pow_ne_zero _ hne)
    · exact (mul_eq_zero.1 (hz4 ▸ e4)).resolve_right (pow_ne_zero _ hne)
  have y1 : y 1 = z1 / η := by rw [hz1]; field_simp
  have y2 : y 2 = z2 / η ^ 2 := by rw [hz2]; field_simp
  have y3 : y 3 = z3 / η ^ 3 := by rw [hz3]; field_simp
  have y4 : y 4 = z4 / η ^ 4 := by rw [hz4]; field_simp
  have definite : ∀ (a b c d e l01 l02 l03 l04 l12 l13 l24 : ℝ), 0 < a → 0 < b → 0 < c → 0 < d → 0 < e →
      0 < a * (y 0 + l01 * z1 + l02 * z2 + l03 * z3 + l04 * z4) ^ 2 + b * (z1 + l12 * z2 + l13 * z3) ^ 2 +
        c * (z2 + l24 * z4) ^ 2 + d * z3 ^ 2 + e * z4 ^ 2 := by
    intro a b c d e l01 l02 l03 l04 l12 l13 l24 ha hb hc hd he
    by_contra hneg
    rw [not_lt] at hneg
    have p1 := mul_nonneg ha.le (sq_nonneg (y 0 + l01 * z1 + l02 * z2 + l03 * z3 + l04 * z4))
    have p2 := mul_nonneg hb.le (sq_nonneg (z1 + l12 * z2 + l13 * z3))
    have p3 := mul_nonneg hc.le (sq_nonneg (z2 + l24 * z4))
    have p4 := mul_nonneg hd.le (sq_nonneg z3)
    have p5 := mul_nonneg he.le (sq_nonneg z4)
    have root : ∀ a x : ℝ, 0 < a → a * x ^ 2 = 0 → x = 0 := fun a x ha h =>
      pow_eq_zero_iff (two_ne_zero) |>.1 ((mul_eq_zero.1 h).resolve_left ha.ne')
    have e4 := root e z4 he (by linarith)
    have e3 := root d z3 hd (by linarith)
    have e2 := root c (z2 + l24 * z4) hc (by linarith)
    have e1 := root b (z1 + l12 * z2 + l13 * z3) hb (by linarith)
    have e0 := root a (y 0 + l01 * z1 + l02 * z2 + l03 * z3 + l04 * z4) ha (by linarith)
    simp only [e4, e3, mul_zero, add_zero] at e2
    simp only [e3, e2, mul_zero, add_zero] at e1
    simp only [e4, e3, e2, e1, mul_zero, add_zero] at e0
    exact hnz' ⟨e0, e1, e2, e3, e4⟩
  have both := definite 3 4 (68 / 27) (8 / 5) (1504 / 2975) 0 (7 / 9) 0 1 0 1 (108 / 85) (by norm_num) (by norm_num)
    (by norm_num) (by norm_num) (by norm_num)
  have oneR := definite (3 / 2) (47 / 24) (1096 / 423) (8 / 5) (14848 / 23975) (5 / 6) (7 / 9) (5 / 6) 1 (-4 / 141) 1
    (846 / 685) (by norm_num) (by norm_num) (by norm_num) (by norm_num) (by norm_num)
  have oneL := definite (3 / 2) (47 / 24) (1096 / 423) (8 / 5) (14848 / 23975) (-5 / 6) (7 / 9) (-5 / 6) 1 (4 / 141) 1
    (846 / 685) (by norm_num) (by norm_num) (by norm_num) (by norm_num) (by norm_num)
  have fin : ∀ Q : ℝ, 0 < Q → -(Q / η) < 0 := fun Q hQ => by
    have := div_pos hQ hη
    linarith
  rw [spent, hl', hh', centered_integral hd]
  have el : l - (l + h / 2) = -η := by rw [hηdef]; ring
  have er : l + h - (l + h / 2) = η := by rw [← hηdef]; ring
  cases left with
  | none =>
    cases right with
    | none => simp at hlr
    | some δ =>
      rw [hr δ rfl]
      simp only [slopeLeft, slopeRight, hy, hd, hdd, el, er, hηdef]
      refine lt_of_eq_of_lt ?_ (fin _ oneR)
      rw [y1, y2, y3, y4, y5, hh2]
      field_simp
      ring
  | some δ' =>
    rw [hl δ' rfl]
    cases right with
    | none =>
      simp only [slopeLeft, slopeRight, hy, hd, hdd, el, er, hηdef]
      refine lt_of_eq_of_lt ?_ (fin _ oneL)
      rw [y1, y2, y3, y4, y5, hh2]
      field_simp
      ring
    | some δ =>
      rw [hr δ rfl]
      simp only [slopeLeft, slopeRight, hy, hd, hdd, el, er, hηdef]
      refine lt_of_eq_of_lt ?_ (fin _ both)
      rw [y1, y2, y3, y4, y5, hh2]
      field_simp
      ring

/-- The quintic for which it is not. -/
noncomputable def quintic (c : Coordinate) : ℝ[X] :=
  (C (2 : ℝ) * X - C 30 * X ^ 3 + C 21 * X ^ 5).comp (localPoly c)

theorem quintic_spent (hc : c.xLeft < c.xRight) :
    (quintic c).natDegree ≤ 5 ∧ quintic c ≠ 0 ∧ spent c (quintic c) (some (c.xRight - c.xLeft)) (some (c.xRight - c.xLeft)) =
      136 / (c.xRight - c.xLeft) := by
  obtain ⟨l, hl'⟩ : ∃ l, c.xLeft = l := ⟨_, rfl⟩
  obtain ⟨h, hh'⟩ : ∃ h, c.xRight = l + h := ⟨c.xRight - l, by ring⟩
  have hpos : 0 < h := by linarith
  have eh : c.xRight - c.xLeft = h := by linarith
  have hne : h ≠ 0 := hpos.ne'
  have hloc : ∀ x, c.globalToLocal x = (x - (l + h / 2)) / (h / 2) := by
    intro x
    rw [c.eq_linear.2.2.2.2.2 x, eh, hh', hl']
    congr 1
    ring
  have hev : ∀ x, (quintic c).eval x = 2 * c.globalToLocal x - 30 * c.globalToLocal x ^ 3 + 21 * c.globalToLocal x ^ 5 := by
    intro x
    simp only [quintic, eval_comp, eval_add, eval_sub, eval_mul, eval_C, eval_X, eval_pow, localPoly_eval]
  refine ⟨comp_local_degree c _ (by compute_degree), fun e => ?_, ?_⟩
  · have := hev c.xRight
    rw [e, eval_zero, (local_ends hc).2] at this
    norm_num at this
  · let y : Fin 6 → ℝ := ![0, 2 / (h / 2), 0, -30 / (h / 2) ^ 3, 0, 21 / (h / 2) ^ 5]
    have hy : ∀ x, (quintic c).eval x = y 0 + y 1 * (x - (l + h / 2)) + y 2 * (x - (l + h / 2)) ^ 2 +
        y 3 * (x - (l + h / 2)) ^ 3 + y 4 * (x - (l + h / 2)) ^ 4 + y 5 * (x - (l + h / 2)) ^ 5 := by
      intro x
      rw [hev, hloc]
      simp only [y, Matrix.cons_val]
      field_simp
      ring
    obtain ⟨hd, hdd⟩ := centered_derivatives hy
    rw [spent, eh, hl', hh', centered_integral hd]
    have el : l - (l + h / 2) = -(h / 2) := by ring
    have er : l + h - (l + h / 2) = h / 2 := by ring
    simp only [slopeLeft, slopeRight, hy, hd, hdd, el, er, y, Matrix.cons_val]
    field_simp
    ring

/-! ### Elements of a grid -/

variable {V : Type*}

/-- The polynomial with given values at the nodes. -/
theorem through (hc : c.xLeft < c.xRight) (h : Built c s) (hk : s.kind ≠ .modal) (u : Fin (p + 1) → ℝ) :
    ∃ U : ℝ[X], U.natDegree ≤ p ∧ ∀ j, U.eval (s.points j) = u j := by
  choose q hq hv _ using basis_poly hc h
  refine ⟨∑ i, C (u i) * q i, natDegree_sum_le_of_forall_le _ _ fun i _ => (natDegree_C_mul_le _ _).trans (hq i), fun j => ?_⟩
  rw [eval_finset_sum, Finset.sum_eq_single j]
  · rw [eval_mul, eval_C, ← hv, (basis_values hc h j).2.1 hk, if_pos rfl, mul_one]
  · intro i _ hi
    rw [eval_mul, eval_C, ← hv, (basis_values hc h i).2.1 hk, if_neg hi, mul_zero]
  · simp

/-- The rate of the values of a polynomial in a grid of elements of equal lengths. -/
theorem rate_spent {co : Fin (n + 2) → Coordinate} (hc : ∀ i, (co i).xLeft < (co i).xRight) {δ : ℝ}
    (hδ : ∀ i, (co i).xRight - (co i).xLeft = δ) (grid : Grid p n V) (hb : ∀ i, Built (co i) (grid.cells i).setup)
    {g : Correction} (hg : IsPair (p + 1) g.value g.gradient) (i : Fin (n + 2)) (hf : Fits (grid.cells i).setup g)
    (U : ℝ[X]) (hU : U.natDegree ≤ p) (r : ℝ) :
    rate (matricesOf g grid i) (grid.cells i).setup (fun j => U.eval ((grid.cells i).setup.points j)) = some r ↔
      r < 0 ∧ r = spent (co i) U ((leftOf grid i).map fun _ => δ) ((rightOf grid i).map fun _ => δ) := by
  have hlen : ∀ j, (grid.cells j).setup.coordinate.length = δ := fun j => by
    rw [((hb j).sane (hc j)).2, (co j).eq_linear.1, hδ]
  have e := rate_form (hc i) (hb i) hg hf ((leftOf grid i).map fun j => (grid.cells j).setup)
    ((rightOf grid i).map fun j => (grid.cells j).setup) U hU
  simp only [Option.map_map, Function.comp_def, hlen, add_self_div_two] at e
  have hm : matricesOf g grid i = matrices g (grid.cells i).setup ((leftOf grid i).map fun j => (grid.cells j).setup)
    ((rightOf grid i).map fun j => (grid.cells j).setup) := rfl
  rw [← hm] at e
  simp only [rate, e]
  split_ifs with hneg
  · simp only [Option.some.injEq]
    exact ⟨fun h => ⟨h ▸ hneg, h.symm⟩, fun h => h.2.symm⟩
  · refine ⟨fun h => by simp at h, fun h => ?_⟩
    exact absurd (h.2 ▸ h.1) hneg

/-- An element has at least one neighbour. -/
theorem neighbour (grid : Grid p n V) (i : Fin (n + 2)) : (leftOf grid i).isSome ∨ (rightOf grid i).isSome := by
  by_cases h0 : i = 0
  · right
    subst h0
    rw [rightOf, if_neg (by intro e; have := congrArg Fin.val e; simp at this)]
    rfl
  · left
    rw [leftOf, if_neg h0]
    rfl

/-- Up to degree four, in a grid of equal elements, the rate is negative for all values but zero: the
assertion of the code holds and the division by it is sound. -/
theorem rate_negative_partial (hp : p ≤ 4) {co : Fin (n + 2) → Coordinate} (hc : ∀ i, (co i).xLeft < (co i).xRight) {δ : ℝ}
    (hδ : ∀ i, (co i).xRight - (co i).xLeft = δ) (grid : Grid p n V) (hb : ∀ i, Built (co i) (grid.cells i).setup)
    {g : Correction} (hg : IsPair (p + 1) g.value g.gradient) (i : Fin (n + 2)) (hf : Fits (grid.cells i).setup g)
    (u : Fin (p + 1) → ℝ) (hu : u ≠ 0) :
    ∃ r < 0, rate (matricesOf g grid i) (grid.cells i).setup u = some r := by
  obtain ⟨U, hU, hUu⟩ := through (hc i) (hb i) hf.nodal u
  have e : u = fun j => U.eval ((grid.cells i).setup.points j) := _root_.funext fun j => (hUu j).symm
  have hU0 : U ≠ 0 := by
    rintro rfl
    exact hu (by rw [e]; funext j; simp)
  have hneg := spent_neg (hc i) (hU.trans hp) hU0 ((leftOf grid i).map fun _ => δ) ((rightOf grid i).map fun _ => δ)
    (by simp [hδ]) (by simp [hδ]) (by simpa using neighbour grid i)
  exact ⟨_, hneg, by rw [e]; exact (rate_spent hc hδ grid hb hg i hf U hU _).2 ⟨hneg, rfl⟩⟩

/-- From degree five on the assertion fails for some values: the form is positive. -/
theorem rate_fails (hp : 5 ≤ p) {co : Fin (n + 2) → Coordinate} (hc : ∀ i, (co i).xLeft < (co i).xRight) {δ : ℝ}
    (hδ : ∀ i, (co i).xRight - (co i).xLeft = δ) (grid : Grid p n V) (hb : ∀ i, Built (co i) (grid.cells i).setup)
    {g : Correction} (hg : IsPair (p + 1) g.value g.gradient) (i : Fin (n + 2)) (hf : Fits (grid.cells i).setup g)
    (hi : grid.boundary = none ∨ i ≠ 0 ∧ i ≠ Fin.last _) :
    ∃ u : Fin (p + 1) → ℝ, u ≠ 0 ∧ rate (matricesOf g grid i) (grid.cells i).setup u = none := by
  obtain ⟨hd, h0, hs⟩ := quintic_spent (hc i)
  rw [hδ] at hs
  have hpos : 0 < δ := by rw [← hδ i]; exact sub_pos.2 (hc i)
  refine ⟨fun j => (quintic (co i)).eval ((grid.cells i).setup.points j), fun e => h0 ?_, ?_⟩
  · refine Polynomial.funext fun x => ?_
    rw [interpolate (hc i) (hb i) hf.nodal _ (hd.trans hp)]
    simp [fun j => congrFun e j]
  · rw [Option.eq_none_iff_forall_ne_some]
    intro r hr
    obtain ⟨hr0, hrs⟩ := (rate_spent hc hδ grid hb hg i hf _ (hd.trans hp) r).1 hr
    have hl : leftOf grid i ≠ none := by
      unfold leftOf
      rcases hi with hi | hi
      · by_cases h : i = 0 <;> simp [h, hi]
      · simp [hi.1]
    have hr' : rightOf grid i ≠ none := by
      unfold rightOf
      rcases hi with hi | hi
      · by_cases h : i = Fin.last _ <;> simp [h, hi]
      · simp [hi.2]
    obtain ⟨jl, hl⟩ := Option.ne_none_iff_exists'.1 hl
    obtain ⟨jr, hr'⟩ := Option.ne_none_iff_exists'.1 hr'
    rw [hl, hr', Option.map_some, Option.map_some, hs] at hrs
    have : 0 < 136 / δ := by positivity
    linarith

/-- For zero the assertion always fails.  The values that are passed are the solution in the element: where a jump
detector reports an element in which the solution is zero, the energy-based viscosity stops the program. -/
theorem rate_zero (m : Matrices p) (s : Setup p) : rate m s 0 = none := by
  simp [rate]

/-- The elements and corrections of the schemes. -/
theorem fits_gauss {v : PyPoly.Vincent} (hk : s.kind = .legendreRoots)
    (hv : PyPoly.vincent (p + 1) PyPoly.muGalerkin = some v) :
    IsPair (p + 1) (Correction.vincent v).value (Correction.vincent v).gradient ∧ Fits s (.vincent v) := by
  obtain ⟨h1, h2⟩ := matched_gauss (g := .vincent v) (.inl ⟨v, hv, rfl⟩)
  exact ⟨h1, .legendre hk h2⟩

theorem fits_lobatto {v : PyPoly.Vincent} (hc : c.xLeft < c.xRight) (hb : Built c s) (hk : s.kind = .lobatto) (h5 : p ≤ 5)
    (hv : PyPoly.vincent (p + 1) PyPoly.muLobatto = some v) :
    IsPair (p + 1) (Correction.vincent v).value (Correction.vincent v).gradient ∧ Fits s (.vincent v) := by
  obtain ⟨h1, h2, h3⟩ := matched_lobatto (lobatto_pos hc hb hk) (g := .vincent v) (.inl ⟨v, hv, rfl⟩)
  exact ⟨h1, .lobatto hk h5 h2 h3⟩

/-- Two periodic elements of length one, Legendre nodes of degree one: the values of the constant one lose energy at
the rate six. -/
example : ∃ (v : PyPoly.Vincent) (grid : Grid 1 0 ℝ), PyPoly.vincent 2 PyPoly.muGalerkin = some v ∧
    (∀ i, Built (pair i) (grid.cells i).setup) ∧
    ∀ i, rate (matricesOf (.vincent v) grid i) (grid.cells i).setup (fun _ => 1) = some (-6) := by
  obtain ⟨v, hv⟩ : ∃ v, PyPoly.vincent 2 PyPoly.muGalerkin = some v := ⟨_, if_pos (by omega)⟩
  choose m hm using fun i => (constructors (pair_pos i) gauss2_exact).2.1
  have bm : ∀ i, Built (pair i) (m i) := fun i => .legendreRoots _ gauss2_exact (hm i)
  have hk : ∀ i, (m i).kind = .legendreRoots := fun i => (lagrange_sane (by simp) (pair_pos i) (hm i)).2.2.1
  refine ⟨v, ⟨fun i => ⟨m i, setCoeff (m i) 0, none⟩, none⟩, hv, bm, fun i => ?_⟩
  obtain ⟨h1, h2⟩ := fits_gauss (hk i) hv
  have := (rate_spent pair_pos (δ := 1) pair_length
    (⟨fun i => ⟨m i, setCoeff (m i) 0, none⟩, none⟩ : Grid 1 0 ℝ) bm h1 i h2 (C 1) (by simp) (-6)).2
  simp only [eval_C] at this
  refine this ⟨by norm_num, ?_⟩
  fin_cases i <;> simp [leftOf, rightOf, spent, slopeLeft, slopeRight] <;> norm_num

end MiniCFD.PyDissipation
