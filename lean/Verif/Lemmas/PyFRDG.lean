import Verif.Props.PyFR

/-! Helper lemmas that compare flux reconstruction with the discontinuous Galerkin schemes. -/

namespace MiniCFD.PyFR
open MiniCFD.PyQuad MiniCFD.PyExpansion MiniCFD.PyDG Polynomial
open MiniCFD.Spec.Gauss (ExactTo)
open MiniCFD.Spec.PyPoly (IsPair Orthogonal)
open MiniCFD.Spec.PyFR (PolyMap Interpolates)

variable {p : ℕ} {c : Coordinate} {V : Type*} [NormedAddCommGroup V] [NormedSpace ℝ V]

/-- The quadrature of an element is exact to degree `2 p + 1`, on Lobatto nodes to `2 p - 1`. -/
theorem integrate_poly (hc : c.xLeft < c.xRight) {s : Setup p} (h : Built c s) (hl : s.kind = .lobatto → p ≤ 5)
    (W : ℝ[X]) (hW : W.natDegree ≤ 2 * p - 1 ∨ W.natDegree ≤ 2 * p + 1 ∧ s.kind ≠ .lobatto) :
    s.integrator.integrate (fun x => W.eval x) = ∫ x in c.xLeft..c.xRight, W.eval x := by
  cases h with
  | uniform rule exact h =>
    rw [(lagrange_sane (by simp) hc h).2.2.2.2.1]; exact integrate_exact exact c W (by omega)
  | legendreRoots rule exact h =>
    rw [(lagrange_sane (by simp) hc h).2.2.2.2.1]; exact integrate_exact exact c W (by omega)
  | modal rule exact h =>
    rw [(modal_sane hc h).2.2.2.1]; exact integrate_exact exact c W (by omega)
  | lobatto h =>
    obtain ⟨rule, hr, h⟩ := lobatto_cases h
    obtain ⟨_, _, hk, _, hi, _⟩ := lagrange_sane (by simp) hc h
    have h1 : 1 ≤ p := by
      rcases Nat.eq_zero_or_pos p with rfl | h
      · cases hr
      · exact h
    obtain ⟨r', hr', hex⟩ := lobatto_exact h1 (hl hk)
    rw [hr] at hr'; cases hr'
    rw [hi]
    exact integrate_exact hex c W (by rcases hW with hW | hW; · exact hW
                                      · exact absurd hk hW.2)

theorem lobatto_pos (hc : c.xLeft < c.xRight) {s : Setup p} (h : Built c s) (hk : s.kind = .lobatto) : 1 ≤ p := by
  cases h with
  | uniform rule _ h => rw [(lagrange_sane (by simp) hc h).2.2.1] at hk; simp at hk
  | modal rule _ h => rw [(modal_sane hc h).2.1] at hk; simp at hk
  | legendreRoots rule _ h => rw [(lagrange_sane (by simp) hc h).2.2.1] at hk; simp at hk
  | lobatto h =>
    obtain ⟨rule, hr, h⟩ := lobatto_cases h
    rcases Nat.eq_zero_or_pos p with rfl | h
    · cases hr
    · exact h

theorem derivative_degree {φ : ℝ[X]} {n : ℕ} (hφ : φ.natDegree ≤ n) : (derivative φ).degree < n := by
  rw [degree_lt_iff_coeff_zero]
  intro m hm
  rw [coeff_derivative, coeff_eq_zero_of_natDegree_lt (by omega), zero_mul]

/-- The integral of a product by parts. -/
theorem by_parts (φ T : ℝ[X]) (a b : ℝ) : ∫ x in a..b, (φ * derivative T).eval x =
    φ.eval b * T.eval b - φ.eval a * T.eval a - ∫ x in a..b, T.eval x * (derivative φ).eval x := by
  have h1 := intervalIntegral.integral_eq_sub_of_hasDerivAt (fun x _ => (φ * T).hasDerivAt x)
    ((derivative (φ * T)).continuous.intervalIntegrable a b)
  have h2 : ∫ x in a..b, (derivative (φ * T)).eval x =
      (∫ x in a..b, (φ * derivative T).eval x) + ∫ x in a..b, T.eval x * (derivative φ).eval x := by
    rw [← intervalIntegral.integral_add ((φ * derivative T).continuous.intervalIntegrable _ _)
      (Continuous.intervalIntegrable (u := fun x => T.eval x * (derivative φ).eval x)
        (T.continuous.mul (derivative φ).continuous) _ _)]
    congr 1
    funext x
    simp only [derivative_mul, eval_add, eval_mul]
    ring
  rw [h2, eval_mul, eval_mul] at h1
  linarith

/-- Orthogonality carries over to the element. -/
theorem orthogonal_global (hc : c.xLeft < c.xRight) {f : ℝ → ℝ} {n : ℕ} (h : Orthogonal f n) {T : ℝ[X]}
    (hT : ∀ x, f (c.globalToLocal x) = T.eval x) (ψ : ℝ[X]) (hψ : ψ.degree < n) :
    ∫ x in c.xLeft..c.xRight, T.eval x * ψ.eval x = 0 := by
  let G : ℝ[X] := C ((c.xRight - c.xLeft) / 2) * X + C ((c.xLeft + c.xRight) / 2)
  have hJ : c.xRight - c.xLeft ≠ 0 := by linarith
  have hG : ∀ x, G.eval (c.globalToLocal x) = x := by
    intro x
    rw [c.eq_linear.2.2.2.2.2 x]
    simp only [G, eval_add, eval_mul, eval_C, eval_X]
    field_simp
    ring
  have e : (fun x => T.eval x * ψ.eval x) = fun x => (fun ξ => f ξ * (ψ.comp G).eval ξ) (c.globalToLocal x) := by
    funext x
    simp only [eval_comp, hG, hT]
  rw [e, integral_local hc fun ξ => f ξ * (ψ.comp G).eval ξ]
  have hd : (ψ.comp G).degree < n := by
    rw [degree_lt_iff_coeff_zero] at hψ ⊢
    intro m hm
    refine coeff_eq_zero_of_degree_lt ?_
    by_cases h0 : ψ = 0
    · subst h0; simp
    have : ψ.natDegree < n := by
      by_contra hn
      exact leadingCoeff_ne_zero.2 h0 (hψ _ (by omega))
    refine lt_of_le_of_lt degree_le_natDegree ?_
    have h2 : (ψ.comp G).natDegree ≤ ψ.natDegree * 1 :=
      natDegree_comp_le.trans (Nat.mul_le_mul le_rfl natDegree_linear_le)
    exact_mod_cast (by omega : (ψ.comp G).natDegree < m)
  rw [h _ hd, mul_zero]

theorem orthogonal_mirror {f : ℝ → ℝ} {n : ℕ} (h : Orthogonal f n) : Orthogonal (fun x => f (-x)) n := by
  intro q hq
  have := intervalIntegral.integral_comp_neg (a := -1) (b := 1) fun x => f x * (q.comp (-X)).eval x
  simp only [eval_comp, eval_neg, eval_X, neg_neg] at this
  rw [this]
  have hd : (q.comp (-X)).degree < n := by
    by_cases h0 : q = 0
    · subst h0; simpa using hq
    refine lt_of_le_of_lt degree_le_natDegree ?_
    have h2 : (q.comp (-X)).natDegree ≤ q.natDegree * 1 :=
      natDegree_comp_le.trans (Nat.mul_le_mul le_rfl (by simp))
    have h3 := (natDegree_lt_iff_degree_lt h0).2 hq
    exact_mod_cast (by omega : (q.comp (-X)).natDegree < n)
  have := h _ hd
  simp only [eval_comp, eval_neg, eval_X] at this
  exact this

/-- A function of degree `p + 1` whose derivative vanishes at one end, tested with polynomials of degree
below `p`, and its derivative at the Lobatto nodes. -/
theorem lumping (hc : c.xLeft < c.xRight) {s : Setup p} (h : Built c s) (hk : s.kind = .lobatto) (h5 : p ≤ 5)
    {T : ℝ[X]} (hT : T.natDegree ≤ p + 1) {near far : Fin (p + 1)} (hne : near ≠ far)
    (h0 : (derivative T).eval (s.points far) = 0) {σ : ℝ}
    (hint : ∀ φ : ℝ[X], φ.natDegree ≤ p - 1 →
      ∫ x in c.xLeft..c.xRight, (φ * derivative T).eval x = σ * φ.eval (s.points near))
    (φ : ℝ[X]) : s.integrator.integrate (fun x => φ.eval x * (derivative T).eval x) = σ * φ.eval (s.points near) := by
  have hp := lobatto_pos hc h hk
  have hm : s.kind ≠ .modal := by simp [hk]
  have hdT : (derivative T).natDegree ≤ p := (natDegree_derivative_le T).trans (by omega)
  have hw : ∀ j, s.integrator.weights j ≠ 0 := by
    intro j
    have := diag_pos hc h j
    rw [(mass_matrix hc h j j).2.1 (.inr hk), if_pos rfl] at this
    exact this.ne'
  choose q hq hv _ using basis_poly hc h
  have hcard : ∀ i j, (q i).eval (s.points j) = if i = j then 1 else 0 := fun i j => by
    rw [← hv, (basis_values hc h i).2.1 hm]
  have hinj : ∀ i j, s.points i = s.points j → i = j := by
    intro i j e
    by_contra hij
    have h1 := hcard i i
    rw [if_pos rfl, e, hcard, if_neg hij] at h1
    exact zero_ne_one h1
  have hexact : ∀ ψ : ℝ[X], ψ.natDegree ≤ p - 1 →
      ∑ k, s.integrator.weights k * (ψ.eval (s.points k) * (derivative T).eval (s.points k)) =
        σ * ψ.eval (s.points near) := by
    intro ψ hψ
    have hd : (ψ * derivative T).natDegree ≤ 2 * p - 1 := natDegree_mul_le.trans (by omega)
    rw [← hint ψ hψ, ← integrate_poly hc h (fun _ => h5) _ (.inl hd), Integrator.integrate_eq]
    simp only [points_eq hc h (.inr hk), eval_mul, smul_eq_mul]
  have hz : ∀ j, j ≠ near → (derivative T).eval (s.points j) = 0 := by
    intro j hj
    by_cases hjf : j = far
    · rw [hjf, h0]
    obtain ⟨m, hmq⟩ : X - C (s.points far) ∣ q j := by
      rw [dvd_iff_isRoot, IsRoot, hcard, if_neg hjf]
    have hev : ∀ k, (q j).eval (s.points k) = (s.points k - s.points far) * m.eval (s.points k) := by
      intro k; rw [hmq]; simp
    have hmd : m.natDegree ≤ p - 1 := by
      by_cases hm0 : m = 0
      · simp [hm0]
      have := hq j
      rw [hmq, natDegree_mul (X_sub_C_ne_zero _) hm0, natDegree_X_sub_C] at this
      omega
    have hmz : ∀ k, k ≠ j → k ≠ far → m.eval (s.points k) = 0 := by
      intro k hkj hkf
      have e := hev k
      rw [hcard, if_neg (Ne.symm hkj)] at e
      exact (mul_eq_zero.1 e.symm).resolve_left (sub_ne_zero.2 fun e => hkf (hinj _ _ e))
    have hsum := hexact m hmd
    rw [hmz near (Ne.symm hj) hne, mul_zero, Finset.sum_eq_single j] at hsum
    · have hmj : m.eval (s.points j) ≠ 0 := by
        intro e
        have := hev j
        rw [hcard, if_pos rfl, e, mul_zero] at this
        exact one_ne_zero this
      exact (mul_eq_zero.1 ((mul_eq_zero.1 hsum).resolve_left (hw j))).resolve_left hmj
    · intro k _ hkj
      by_cases hkf : k = far
      · rw [hkf, h0]; ring
      · rw [hmz k hkj hkf]; ring
    · simp
  have one := hexact 1 (by simp)
  have single : ∀ ψ : ℝ[X], ∑ k, s.integrator.weights k * (ψ.eval (s.points k) * (derivative T).eval (s.points k)) =
      s.integrator.weights near * (ψ.eval (s.points near) * (derivative T).eval (s.points near)) := by
    intro ψ
    refine Finset.sum_eq_single near (fun k _ hk' => by rw [hz k hk']; ring) (by simp)
  rw [single] at one
  rw [Integrator.integrate_eq]
  simp only [points_eq hc h (.inr hk), smul_eq_mul]
  rw [single φ]
  simp only [eval_one, one_mul, mul_one] at one
  rw [← one]
  ring

/-- The derivatives of the correction functions act on test polynomials as values at the faces. -/
structure Lifts (s : Setup p) (c : Coordinate) {g : Correction} (P : Pair c p g) : Prop where
  left : ∀ φ : ℝ[X], φ.natDegree ≤ p →
    s.integrator.integrate (fun x => φ.eval x * (derivative P.L).eval x) = -φ.eval c.xLeft
  right : ∀ φ : ℝ[X], φ.natDegree ≤ p →
    s.integrator.integrate (fun x => φ.eval x * (derivative P.R).eval x) = φ.eval c.xRight

/-- Both functions of a pair are orthogonal. -/
theorem pair_orthogonal (hc : c.xLeft < c.xRight) {g : Correction} (hg : IsPair (p + 1) g.value g.gradient)
    (P : Pair c p g) {n : ℕ} (ho : Orthogonal (fun x => (g.value x).2) n) (φ : ℝ[X]) (hφ : φ.natDegree ≤ n) :
    ∫ x in c.xLeft..c.xRight, (φ * derivative P.L).eval x = -φ.eval c.xLeft ∧
    ∫ x in c.xLeft..c.xRight, (φ * derivative P.R).eval x = φ.eval c.xRight := by
  have hR := orthogonal_global hc ho (T := P.R) (fun x => by rw [P.value]) _ (derivative_degree hφ)
  have hL := orthogonal_global hc (orthogonal_mirror ho) (T := P.L) (fun x => by rw [← hg.mirror, P.value]) _
    (derivative_degree hφ)
  rw [by_parts, by_parts, hR, hL, P.ll, P.lr, P.rl, P.rr]
  constructor <;> ring

/-- With a Gauss rule: full orthogonality. -/
theorem lifts_gauss (hc : c.xLeft < c.xRight) {s : Setup p} (h : Built c s) (hk : s.kind ≠ .lobatto)
    {g : Correction} (hg : IsPair (p + 1) g.value g.gradient) (P : Pair c p g)
    (ho : Orthogonal (fun x => (g.value x).2) p) : Lifts s c P := by
  have key : ∀ (T : ℝ[X]), T.natDegree ≤ p + 1 → ∀ φ : ℝ[X], φ.natDegree ≤ p →
      s.integrator.integrate (fun x => φ.eval x * (derivative T).eval x) =
        ∫ x in c.xLeft..c.xRight, (φ * derivative T).eval x := by
    intro T hT φ hφ
    have := natDegree_derivative_le T
    rw [← integrate_poly hc h (fun e => absurd e hk) _ (.inr ⟨natDegree_mul_le.trans (by omega), hk⟩)]
    simp only [eval_mul]
  exact ⟨fun φ hφ => by rw [key _ P.degL _ hφ, (pair_orthogonal hc hg P ho φ hφ).1],
    fun φ hφ => by rw [key _ P.degR _ hφ, (pair_orthogonal hc hg P ho φ hφ).2]⟩

/-- On Lobatto nodes: one order less, and no slope at the far end. -/
theorem lifts_lobatto (hc : c.xLeft < c.xRight) {s : Setup p} (h : Built c s) (hk : s.kind = .lobatto) (h5 : p ≤ 5)
    {g : Correction} (hg : IsPair (p + 1) g.value g.gradient) (P : Pair c p g)
    (ho : Orthogonal (fun x => (g.value x).2) (p - 1)) (hs : (g.gradient (-1)).2 = 0) : Lifts s c P := by
  have hp := lobatto_pos hc h hk
  obtain ⟨e0, e1⟩ := lobatto_ends hc h hk
  obtain ⟨el, er⟩ := local_ends hc
  have hne : (0 : Fin (p + 1)) ≠ Fin.last p := by
    intro e
    rw [e, e1] at e0
    linarith
  have hs' : (g.gradient 1).1 = 0 := by
    have h1 := (hg.differentiates 1).1
    have h2 := ((hg.differentiates (-1)).2).comp (1 : ℝ) (hasDerivAt_neg (1 : ℝ))
    have e : ((fun x => (g.value x).2) ∘ Neg.neg) = fun x => (g.value x).1 := by
      funext x; simp [hg.mirror x]
    rw [e] at h2
    rw [h1.unique h2, hs, zero_mul]
  have hR : (derivative P.R).eval (s.points 0) = 0 := by
    rw [e0, ← (P.gradient _).2, el, hs, zero_div]
  have hL : (derivative P.L).eval (s.points (Fin.last p)) = 0 := by
    rw [e1, ← (P.gradient _).1, er, hs', zero_div]
  refine ⟨fun φ _ => ?_, fun φ _ => ?_⟩
  · rw [lumping hc h hk h5 P.degL hne hL (σ := -1) (fun ψ hψ => by
      rw [(pair_orthogonal hc hg P ho ψ hψ).1, e0]; ring) φ, e0]
    ring
  · rw [lumping hc h hk h5 P.degR (Ne.symm hne) hR (σ := 1) (fun ψ hψ => by
      rw [(pair_orthogonal hc hg P ho ψ hψ).2, e1]; ring) φ, e1]
    ring

end MiniCFD.PyFR
