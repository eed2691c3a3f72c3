import Verif.Spec.PyMirror
import Verif.Props.PyDG
import Verif.Props.PyGauss
import Mathlib.Data.Fin.Tuple.Sort
import Mathlib.Analysis.Calculus.Deriv.Comp
import Mathlib.Analysis.Calculus.Deriv.Add
import Mathlib.Analysis.Calculus.Deriv.Mul

/-! Helper lemmas about mirror images of the Python schemes. -/

namespace MiniCFD.PyMirror
open MiniCFD.PyQuad MiniCFD.PyExpansion MiniCFD.PyDG MiniCFD.Spec.PyMirror Polynomial
open MiniCFD.Spec.Gauss (ExactTo)

variable {p : ℕ} {c c' : Coordinate} {w : ℝ} {V : Type*} [NormedAddCommGroup V] [NormedSpace ℝ V] {M : V →L[ℝ] V}

/-! ### Rules of quadrature -/

/-- The points of a rule in another order. -/
def reorder {m : ℕ} (r : Rule m) (e : Equiv.Perm (Fin (m + 1))) : Rule m := ⟨r.x ∘ e, r.w ∘ e⟩

/-- The rule in the mirror. -/
def reflect {m : ℕ} (r : Rule m) : Rule m := ⟨fun i => -r.x i, r.w⟩

theorem reorder_exact {m d : ℕ} {r : Rule m} (h : ExactTo r.apply d) (e : Equiv.Perm (Fin (m + 1))) :
    ExactTo (reorder r e).apply d := by
  intro q hq
  rw [← h q hq]
  exact Equiv.sum_comp e fun i => r.w i * q.eval (r.x i)

theorem reflect_exact {m d : ℕ} {r : Rule m} (h : ExactTo r.apply d) : ExactTo (reflect r).apply d := by
  intro q hq
  have h1 := h (q.comp (-X)) (by
    refine natDegree_comp_le.trans ?_
    rw [natDegree_neg, natDegree_X, mul_one]; exact hq)
  simp only [eval_comp, eval_neg, eval_X] at h1
  refine (show (reflect r).apply (fun x => q.eval x) = r.apply fun x => q.eval (-x) from rfl).trans (h1.trans ?_)
  rw [intervalIntegral.integral_comp_neg (fun x => q.eval x)]
  simp

/-- All rules with the exactness of Gauss are one rule, in whatever order they list their points. -/
theorem gauss_same {m : ℕ} {r r' : Rule m} (h : ExactTo r.apply (2 * m + 1)) (h' : ExactTo r'.apply (2 * m + 1))
    (g : ℝ → V) : ∑ i, r.w i • g (r.x i) = ∑ i, r'.w i • g (r'.x i) := by
  have sorted : ∀ {r : Rule m}, ExactTo r.apply (2 * m + 1) → StrictMono (reorder r (Tuple.sort r.x)).x := fun {r} h =>
    (Tuple.monotone_sort r.x).strictMono_of_injective ((gauss_injective h).comp (Equiv.injective _))
  have e := roots_unique (reorder_exact h _) (reorder_exact h' _) (sorted h) (sorted h')
  calc _ = ∑ i, (reorder r (Tuple.sort r.x)).w i • g ((reorder r (Tuple.sort r.x)).x i) :=
        (Equiv.sum_comp (Tuple.sort r.x) fun i => r.w i • g (r.x i)).symm
    _ = _ := by rw [e]; exact Equiv.sum_comp (Tuple.sort r'.x) fun i => r'.w i • g (r'.x i)

/-- The quadrature of every kind of element. -/
theorem rule_of (hc : c.xLeft < c.xRight) {s : Setup p} (h : Built c s) :
    ∃ rule : Rule p, s.integrator = rule.integrator c ∧
      (s.kind ≠ .lobatto → ExactTo rule.apply (2 * p + 1)) ∧ (s.kind = .lobatto → lobatto p = some rule) := by
  cases h with
  | uniform rule exact h =>
    obtain ⟨_, _, hk, _, hi, _⟩ := lagrange_sane (by simp) hc h
    exact ⟨rule, hi, fun _ => exact, fun h0 => by rw [hk] at h0; cases h0⟩
  | legendreRoots rule exact h =>
    obtain ⟨_, _, hk, _, hi, _⟩ := lagrange_sane (by simp) hc h
    exact ⟨rule, hi, fun _ => exact, fun h0 => by rw [hk] at h0; cases h0⟩
  | modal rule exact h =>
    exact ⟨rule, (modal_sane hc h).2.2.2.1, fun _ => exact, fun h0 => by rw [(modal_sane hc h).2.1] at h0; cases h0⟩
  | lobatto h =>
    obtain ⟨rule, hr, h⟩ := lobatto_cases h
    obtain ⟨_, _, hk, _, hi, _⟩ := lagrange_sane (by simp) hc h
    exact ⟨rule, hi, fun h0 => absurd hk h0, fun _ => hr⟩

/-- Quadrature in the mirror. -/
theorem integrate_mirror (hc : c.xLeft < c.xRight) (ho : Opposite w c c') {s s' : Setup p} (h : Built c s)
    (h' : Built c' s') (hk : s'.kind = .lobatto ↔ s.kind = .lobatto) (g : ℝ → V) :
    s'.integrator.integrate g = s.integrator.integrate fun x => g (w - x) := by
  have hc' : c'.xLeft < c'.xRight := by rw [ho.left, ho.right]; linarith
  obtain ⟨r, hr, hg, hl⟩ := rule_of hc h
  obtain ⟨r', hr', hg', hl'⟩ := rule_of hc' h'
  have key : ∀ G : ℝ → V, ∑ i, r'.w i • G (r'.x i) = ∑ i, r.w i • G (-r.x i) := by
    intro G
    by_cases h0 : s.kind = .lobatto
    · have e := hl h0
      have e' := hl' (hk.2 h0)
      rw [e] at e'
      obtain rfl := Option.some.inj e'
      obtain ⟨_, _, hx, hw, _⟩ := lobatto_sound e
      rw [← Equiv.sum_comp Fin.revPerm]
      refine Finset.sum_congr rfl fun i _ => ?_
      rw [Fin.revPerm_apply, hx, hw]
    · exact (gauss_same (hg' fun h1 => h0 (hk.1 h1)) (reflect_exact (hg h0)) G)
  rw [Integrator.integrate_eq, Integrator.integrate_eq, hr, hr']
  obtain ⟨_, _, hj, _, hx, _⟩ := c.eq_linear
  obtain ⟨_, _, hj', _, hx', _⟩ := c'.eq_linear
  simp only [Rule.integrator, hj, hj', hx, hx', ho.left, ho.right, mul_smul]
  have := key fun y => ((w - c.xLeft - (w - c.xRight)) / 2) •
    g ((w - c.xRight + (w - c.xLeft)) / 2 + y * ((w - c.xLeft - (w - c.xRight)) / 2))
  rw [this]
  refine Finset.sum_congr rfl fun i _ => ?_
  congr 2
  · ring
  · congr 1; ring

/-! ### Derivatives -/

/-- What an element holds is a combination of polynomials. -/
theorem value_poly (hc : c.xLeft < c.xRight) {s : Setup p} (h : Built c s) {st : State p V} (hr : Reached s st) :
    ∃ q : Fin (p + 1) → ℝ[X], (∀ i, (q i).natDegree ≤ p) ∧ s.value st = fun x => ∑ i, (q i).eval x • st.coeff i := by
  choose q hq using fun i => (basis_values hc h i).1
  exact ⟨q, fun i => (hq i).1, funext fun x => by simp only [value_eq hc h hr, (hq _).2]⟩

/-- All derivatives in the mirror. -/
theorem derivative_mirror (hc : c.xLeft < c.xRight) {s : Setup p} (h : Built c s) {st : State p V} (hr : Reached s st)
    {f' : ℝ → V} (hf : Image M w (s.value st) f') (k : ℕ) (x : ℝ) :
    iteratedDeriv k f' x = (-1 : ℝ) ^ k • M (iteratedDeriv k (s.value st) (w - x)) := by
  obtain ⟨q, _, hv⟩ := value_poly hc h hr
  let F : ℕ → ℝ → V := fun k x => ∑ i, (derivative^[k] (q i)).eval x • st.coeff i
  have step : ∀ k x, HasDerivAt (F k) (F (k + 1) x) x := fun k x => HasDerivAt.fun_sum fun i _ => by
    rw [Function.iterate_succ_apply']
    exact ((derivative^[k] (q i)).hasDerivAt x).smul_const _
  have e0 : s.value st = F 0 := hv
  let G : ℕ → ℝ → V := fun k x => (-1 : ℝ) ^ k • M (F k (w - x))
  have step' : ∀ k x, HasDerivAt (G k) (G (k + 1) x) x := by
    intro k x
    have h1 : HasDerivAt (fun y : ℝ => w - y) (-1) x := by simpa using (hasDerivAt_id x).const_sub w
    have h2 : HasDerivAt (fun y => F k (w - y)) ((-1 : ℝ) • F (k + 1) (w - x)) x := (step k (w - x)).scomp x h1
    have h3 := (M.hasFDerivAt.comp_hasDerivAt x h2).const_smul ((-1 : ℝ) ^ k)
    refine h3.congr_deriv ?_
    show _ = (-1 : ℝ) ^ (k + 1) • M (F (k + 1) (w - x))
    rw [map_smul, smul_smul, pow_succ]
  have e1 : f' = G 0 := funext fun x => by
    rw [hf x, e0]; simp [G]
  rw [e1, iteratedDeriv_family G step', e0, iteratedDeriv_family F step]

end MiniCFD.PyMirror
