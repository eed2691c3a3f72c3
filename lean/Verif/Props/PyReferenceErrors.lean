import Verif.Model.PyReference
import Verif.Props.PyExpansion
import Mathlib.Tactic.Linarith
import Mathlib.Tactic.NormNum

/-!
# The errors measured against a reference solution
-/

namespace MiniCFD.PyReference
open MiniCFD.PyQuad Polynomial
open MiniCFD.Spec.Gauss (ExactTo)

variable {m : ℕ}

/-- The integrator of the element comes from a rule with positive weights that integrates polynomials of degree `d`. -/
def Proper (d : ℕ) (e : Integrator m × (ℝ → ℝ)) : Prop :=
  ∃ (r : Rule m) (c : Coordinate), e.1 = r.integrator c ∧ c.xLeft < c.xRight ∧ (∀ i, 0 < r.w i) ∧ ExactTo r.apply d

theorem errors_eq (n : ℕ) (elements : List (Integrator m × (ℝ → ℝ))) (reference : ℝ → ℝ) :
    (measureErrors n elements reference).1 = (elements.map fun e => e.1.norm1 fun x => reference x - e.2 x).sum ∧
    (measureErrors n elements reference).2.1 = √(elements.map fun e => e.1.norm2 (fun x => reference x - e.2 x) ^ 2).sum ∧
    (∀ e ∈ elements, e.1.normInfty (fun x => reference x - e.2 x) (2 * n + 1) ≤ (measureErrors n elements reference).2.2) ∧
    ((measureErrors n elements reference).2.2 = 0 ∨ ∃ e ∈ elements,
      (measureErrors n elements reference).2.2 = e.1.normInfty (fun x => reference x - e.2 x) (2 * n + 1)) ∧
    0 ≤ (measureErrors n elements reference).2.2 := by
  have key : ∀ (l : List (Integrator m × (ℝ → ℝ))) (a b c : ℝ),
      let z := l.foldl (fun (acc : ℝ × ℝ × ℝ) e =>
        (acc.1 + e.1.norm1 (fun x => reference x - e.2 x), acc.2.1 + e.1.norm2 (fun x => reference x - e.2 x) ^ 2,
          max acc.2.2 (e.1.normInfty (fun x => reference x - e.2 x) (2 * n + 1)))) (a, b, c)
      z.1 = a + (l.map fun e => e.1.norm1 fun x => reference x - e.2 x).sum ∧
      z.2.1 = b + (l.map fun e => e.1.norm2 (fun x => reference x - e.2 x) ^ 2).sum ∧
      (∀ e ∈ l, e.1.normInfty (fun x => reference x - e.2 x) (2 * n + 1) ≤ z.2.2) ∧
      (z.2.2 = c ∨ ∃ e ∈ l, z.2.2 = e.1.normInfty (fun x => reference x - e.2 x) (2 * n + 1)) ∧ c ≤ z.2.2 := by
    intro l
    induction l with
    | nil => intro a b c; simp
    | cons e l ih =>
      intro a b c
      simp only [List.foldl_cons, List.map_cons, List.sum_cons]
      obtain ⟨h1, h2, h3, h4, h5⟩ := ih (a + e.1.norm1 (fun x => reference x - e.2 x))
        (b + e.1.norm2 (fun x => reference x - e.2 x) ^ 2)
        (max c (e.1.normInfty (fun x => reference x - e.2 x) (2 * n + 1)))
      refine ⟨by rw [h1]; ring, by rw [h2]; ring, ?_, ?_, le_trans (le_max_left _ _) h5⟩
      · intro e' he'
        rcases List.mem_cons.1 he' with rfl | he'
        · exact le_trans (le_max_right _ _) h5
        · exact h3 e' he'
      · rcases h4 with h4 | ⟨e', he', h4⟩
        · rcases max_choice c (e.1.normInfty (fun x => reference x - e.2 x) (2 * n + 1)) with hm | hm
          · exact Or.inl (h4.trans hm)
          · exact Or.inr ⟨e, List.mem_cons_self, h4.trans hm⟩
        · exact Or.inr ⟨e', List.mem_cons_of_mem _ he', h4⟩
  have h := key elements 0 0 0
  have hz : measureErrors n elements reference =
      let z := elements.foldl (fun (acc : ℝ × ℝ × ℝ) e =>
        (acc.1 + e.1.norm1 (fun x => reference x - e.2 x), acc.2.1 + e.1.norm2 (fun x => reference x - e.2 x) ^ 2,
          max acc.2.2 (e.1.normInfty (fun x => reference x - e.2 x) (2 * n + 1)))) (0, 0, 0)
      (z.1, √z.2.1, z.2.2) := rfl
  rw [hz]
  dsimp only at h ⊢
  obtain ⟨h1, h2, h3, h4, h5⟩ := h
  exact ⟨by rw [h1, zero_add], by rw [h2, zero_add], h3, h4, h5⟩

/-- The first and the second error are not negative, and each vanishes exactly if the solution agrees with the reference
at all points of integration. -/
theorem errors_zero (n d : ℕ) (elements : List (Integrator m × (ℝ → ℝ))) (reference : ℝ → ℝ)
    (hp : ∀ e ∈ elements, Proper d e) :
    0 ≤ (measureErrors n elements reference).1 ∧ 0 ≤ (measureErrors n elements reference).2.1 ∧
    ((measureErrors n elements reference).2.1 = 0 ↔ ∀ e ∈ elements, ∀ i, e.2 (e.1.points i) = reference (e.1.points i)) ∧
    ((measureErrors n elements reference).1 = 0 ↔ ∀ e ∈ elements, ∀ i, e.2 (e.1.points i) = reference (e.1.points i)) := by
  obtain ⟨h1, h2, h3⟩ := errors_eq n elements reference
  have hn1 : ∀ e ∈ elements, 0 ≤ e.1.norm1 (fun x => reference x - e.2 x) := by
    intro e he
    obtain ⟨r, c, hq, hlt, hw, hd⟩ := hp e he
    rw [hq]
    exact (norms hw c hlt _ (fun _ => 0)).1
  have hz1 : ∀ e ∈ elements, (e.1.norm1 (fun x => reference x - e.2 x) = 0 ↔
      ∀ i, e.2 (e.1.points i) = reference (e.1.points i)) := by
    intro e he
    obtain ⟨r, c, hq, hlt, hw, hd⟩ := hp e he
    have hW : ∀ i, 0 < e.1.weights i := fun i => by
      rw [hq]
      exact mul_pos (hw i) ((coordinate_spec c hlt).2.2.2.2.2.2.2.2 _)
    rw [Integrator.norm1, Integrator.integrate_eq]
    simp only [smul_eq_mul]
    rw [Finset.sum_eq_zero_iff_of_nonneg fun i _ => mul_nonneg (hW i).le (abs_nonneg _)]
    simp only [Finset.mem_univ, forall_const, mul_eq_zero, abs_eq_zero, sub_eq_zero]
    refine forall_congr' fun i => ?_
    rw [or_iff_right (hW i).ne', eq_comm]
  have hz2 : ∀ e ∈ elements, (e.1.norm2 (fun x => reference x - e.2 x) ^ 2 = 0 ↔
      ∀ i, e.2 (e.1.points i) = reference (e.1.points i)) := by
    intro e he
    obtain ⟨r, c, hq, hlt, hw, hd⟩ := hp e he
    have := (norms hw c hlt (fun x => reference x - e.2 x) (fun _ => 0)).2.2.2.2
    rw [sq_eq_zero_iff, hq, this]
    exact forall_congr' fun i => by rw [sub_eq_zero, eq_comm]
  have hsum : ∀ g : Integrator m × (ℝ → ℝ) → ℝ, (∀ e ∈ elements, 0 ≤ g e) →
      (0 ≤ (elements.map g).sum ∧ ((elements.map g).sum = 0 ↔ ∀ e ∈ elements, g e = 0)) := by
    intro g hg
    clear hz1 hz2 hn1 h1 h2 h3 hp
    induction elements with
    | nil => simp
    | cons e l ih =>
      obtain ⟨i1, i2⟩ := ih fun e' he' => hg e' (List.mem_cons_of_mem _ he')
      have h0 := hg e List.mem_cons_self
      rw [List.map_cons, List.sum_cons]
      refine ⟨by linarith, ?_⟩
      rw [List.forall_mem_cons, ← i2]
      exact ⟨fun h => ⟨by linarith, by linarith⟩, fun h => by rw [h.1, h.2, add_zero]⟩
  obtain ⟨s1, s1'⟩ := hsum _ hn1
  obtain ⟨s2, s2'⟩ := hsum (fun e => e.1.norm2 (fun x => reference x - e.2 x) ^ 2) fun _ _ => sq_nonneg _
  refine ⟨h1 ▸ s1, h2 ▸ Real.sqrt_nonneg _, ?_, ?_⟩
  · rw [h2, Real.sqrt_eq_zero s2, s2']
    exact forall₂_congr hz2
  · rw [h1, s1']
    exact forall₂_congr hz1

/-- The first error is at most the second times the root of the length of the domain. -/
theorem errors_compare (n d : ℕ) (elements : List (Integrator m × (ℝ → ℝ))) (reference : ℝ → ℝ)
    (hp : ∀ e ∈ elements, Proper d e) :
    (measureErrors n elements reference).1 ≤
      √(elements.map fun e => e.1.coordinate.xRight - e.1.coordinate.xLeft).sum * (measureErrors n elements reference).2.1 := by
  obtain ⟨h1, h2, _⟩ := errors_eq n elements reference
  have hel : ∀ e ∈ elements, 0 ≤ e.1.norm1 (fun x => reference x - e.2 x) ∧
      0 ≤ e.1.coordinate.xRight - e.1.coordinate.xLeft ∧
      e.1.norm1 (fun x => reference x - e.2 x) ^ 2 ≤
      (e.1.coordinate.xRight - e.1.coordinate.xLeft) * e.1.norm2 (fun x => reference x - e.2 x) ^ 2 := by
    intro e he
    obtain ⟨r, c, hq, hlt, hw, hd⟩ := hp e he
    have hcs := (norms hw c hlt (fun x => |reference x - e.2 x|) (fun _ => 1)).2.2.1
    have h11 := (norms hw c hlt (fun _ => 1) (fun _ => 1)).2.2.2.1
    have hlen : (r.integrator c).innerProduct (fun _ => 1) (fun _ => 1) = c.xRight - c.xLeft := by
      have := integrate_exact hd c (C 1) (by simp)
      simpa [Integrator.innerProduct] using this
    have habs : (r.integrator c).norm2 (fun x => |reference x - e.2 x|) = (r.integrator c).norm2 (fun x => reference x - e.2 x) := by
      simp [Integrator.norm2]
    have hip : (r.integrator c).innerProduct (fun x => |reference x - e.2 x|) (fun _ => 1) =
        (r.integrator c).norm1 (fun x => reference x - e.2 x) := by
      simp [Integrator.innerProduct, Integrator.norm1]
    have hn := (norms hw c hlt (fun x => reference x - e.2 x) (fun _ => 1)).1
    rw [hip, habs, abs_of_nonneg hn] at hcs
    rw [hlen] at h11
    have hcc : (r.integrator c).coordinate = c := rfl
    rw [hq, hcc]
    refine ⟨hn, by linarith, ?_⟩
    rw [← h11, mul_comm, ← mul_pow]
    exact pow_le_pow_left₀ hn hcs 2
  rw [h1, h2]
  have key : ∀ l : List (Integrator m × (ℝ → ℝ)), (∀ e ∈ l, e ∈ elements) →
      0 ≤ (l.map fun e => e.1.norm1 fun x => reference x - e.2 x).sum ∧
      0 ≤ (l.map fun e => e.1.coordinate.xRight - e.1.coordinate.xLeft).sum ∧
      0 ≤ (l.map fun e => e.1.norm2 (fun x => reference x - e.2 x) ^ 2).sum ∧
      (l.map fun e => e.1.norm1 fun x => reference x - e.2 x).sum ^ 2 ≤
        (l.map fun e => e.1.coordinate.xRight - e.1.coordinate.xLeft).sum *
          (l.map fun e => e.1.norm2 (fun x => reference x - e.2 x) ^ 2).sum := by
    intro l
    induction l with
    | nil => simp
    | cons e l ih =>
      intro hl
      obtain ⟨i1, i2, i3, i4⟩ := ih fun e' he' => hl e' (List.mem_cons_of_mem _ he')
      obtain ⟨j1, j2, j4⟩ := hel e (hl e List.mem_cons_self)
      simp only [List.map_cons, List.sum_cons]
      generalize (l.map fun e => e.1.norm1 fun x => reference x - e.2 x).sum = A at *
      generalize (l.map fun e => e.1.coordinate.xRight - e.1.coordinate.xLeft).sum = L at *
      generalize (l.map fun e => e.1.norm2 (fun x => reference x - e.2 x) ^ 2).sum = B at *
      generalize e.1.norm1 (fun x => reference x - e.2 x) = a at *
      generalize e.1.coordinate.xRight - e.1.coordinate.xLeft = ℓ at *
      have j3 := sq_nonneg (e.1.norm2 (fun x => reference x - e.2 x))
      generalize e.1.norm2 (fun x => reference x - e.2 x) ^ 2 = b at *
      refine ⟨by linarith, by linarith, by linarith, ?_⟩
      -- `2 a A ≤ 2 √(ℓ b L B) ≤ ℓ B + L b`
      have h2 : (2 * (a * A)) ^ 2 ≤ (ℓ * B + L * b) ^ 2 := by
        have h3 : a ^ 2 * A ^ 2 ≤ (ℓ * b) * (L * B) := mul_le_mul j4 i4 (sq_nonneg _) (mul_nonneg j2 j3)
        nlinarith [sq_nonneg (ℓ * B - L * b)]
      have h4 : 2 * (a * A) ≤ ℓ * B + L * b :=
        abs_le_of_sq_le_sq' h2 (by positivity) |>.2
      nlinarith
  obtain ⟨i1, i2, i3, i4⟩ := key elements fun _ h => h
  rw [← Real.sqrt_mul i2]
  exact Real.le_sqrt_of_sq_le i4

/-- If the reference and the solution are polynomials on each element, of degrees the rule integrates after squaring, the
second error is the `L²` distance. -/
theorem errors_exact (n d : ℕ) (elements : List (Integrator m × (ℝ → ℝ))) (reference : ℝ → ℝ)
    (hp : ∀ e ∈ elements, Proper (2 * d) e ∧ ∃ p : ℝ[X], p.natDegree ≤ d ∧ ∀ x, reference x - e.2 x = p.eval x) :
    (measureErrors n elements reference).2.1 =
      √(elements.map fun e => ∫ x in e.1.coordinate.xLeft..e.1.coordinate.xRight, (reference x - e.2 x) ^ 2).sum := by
  rw [(errors_eq n elements reference).2.1]
  congr 2
  refine List.map_congr_left fun e he => ?_
  obtain ⟨⟨r, c, hq, hlt, hw, hd⟩, p, hpd, hpe⟩ := hp e he
  have hcc : (r.integrator c).coordinate = c := rfl
  rw [hq, hcc, (norms hw c hlt _ (fun _ => 0)).2.2.2.1]
  have := integrate_exact hd c (p ^ 2) ((natDegree_pow_le).trans (by omega))
  simp only [eval_pow] at this
  simp only [Integrator.innerProduct, hpe]
  rw [← this]
  congr 1
  funext x
  ring

/-- The third error is the largest deviation on the `2 (n + 1)` equidistant points of each of the elements. -/
theorem errors_max (n d : ℕ) (elements : List (Integrator m × (ℝ → ℝ))) (reference : ℝ → ℝ)
    (hp : ∀ e ∈ elements, Proper d e) (hne : elements ≠ []) :
    IsGreatest {v | ∃ e ∈ elements, ∃ i : ℕ, i ≤ 2 * n + 1 ∧ ∃ x, x = e.1.coordinate.xLeft +
        i * ((e.1.coordinate.xRight - e.1.coordinate.xLeft) / (2 * n + 1)) ∧ v = |reference x - e.2 x|}
      (measureErrors n elements reference).2.2 := by
  obtain ⟨_, _, h3, h4, h5⟩ := errors_eq n elements reference
  have hinf : ∀ e ∈ elements,
      (∀ i ≤ 2 * n + 1, |(fun x => reference x - e.2 x) (e.1.coordinate.xLeft +
        i * ((e.1.coordinate.xRight - e.1.coordinate.xLeft) / (2 * n + 1)))| ≤
          e.1.normInfty (fun x => reference x - e.2 x) (2 * n + 1)) ∧
      ∃ i ≤ 2 * n + 1, e.1.normInfty (fun x => reference x - e.2 x) (2 * n + 1) =
        |(fun x => reference x - e.2 x) (e.1.coordinate.xLeft +
          i * ((e.1.coordinate.xRight - e.1.coordinate.xLeft) / (2 * n + 1)))| := by
    intro e he
    obtain ⟨r, c, hq, hlt, hw, hd⟩ := hp e he
    have := norm_infty r c (fun x => reference x - e.2 x) (2 * n + 1)
    push_cast at this
    have hcc : (r.integrator c).coordinate = c := rfl
    rw [hq, hcc]
    exact this
  constructor
  · have : ∃ e ∈ elements, (measureErrors n elements reference).2.2 =
        e.1.normInfty (fun x => reference x - e.2 x) (2 * n + 1) := by
      rcases h4 with h4 | h4
      · obtain ⟨e, he⟩ := List.exists_mem_of_ne_nil _ hne
        refine ⟨e, he, le_antisymm ?_ (h3 e he)⟩
        rw [h4]
        exact (abs_nonneg _).trans ((hinf e he).1 0 (Nat.zero_le _))
      · exact h4
    obtain ⟨e, he, h⟩ := this
    obtain ⟨i, hi, h'⟩ := (hinf e he).2
    exact ⟨e, he, i, hi, _, rfl, h.trans h'⟩
  · rintro v ⟨e, he, i, hi, x, rfl, rfl⟩
    exact ((hinf e he).1 i hi).trans (h3 e he)

/-- The hypotheses hold of two elements with the two-point rule, a piecewise linear solution and a linear reference. -/
example : ∀ e ∈ [(PyExpansion.gauss2.integrator (.linear 0 1), fun x : ℝ => x), (PyExpansion.gauss2.integrator (.linear 1 3), fun _ => 1)],
    Proper (2 * 1) e ∧ ∃ p : ℝ[X], p.natDegree ≤ 1 ∧ ∀ x, 5 * x - e.2 x = p.eval x := by
  have hg : ExactTo PyExpansion.gauss2.apply 2 := fun p hp => PyExpansion.gauss2_exact p (by omega)
  have hw : ∀ i, 0 < PyExpansion.gauss2.w i := by
    intro i
    fin_cases i <;> simp [PyExpansion.gauss2]
  intro e he
  simp only [List.mem_cons, List.not_mem_nil, or_false] at he
  rcases he with rfl | rfl
  · exact ⟨⟨_, _, rfl, by norm_num [Coordinate.xLeft, Coordinate.xRight], hw, hg⟩, C 4 * X,
      natDegree_C_mul_le _ _ |>.trans natDegree_X_le, fun x => by simp; ring⟩
  · refine ⟨⟨_, _, rfl, by norm_num [Coordinate.xLeft, Coordinate.xRight], hw, hg⟩, C 5 * X + C (-1), natDegree_linear_le,
      fun x => by simp; ring⟩

end MiniCFD.PyReference
