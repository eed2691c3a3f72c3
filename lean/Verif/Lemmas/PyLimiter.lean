import Verif.Model.PyLimiter
import Verif.Props.PyExpansion
import Mathlib.Algebra.Order.BigOperators.Group.List
import Mathlib.LinearAlgebra.Lagrange
import Mathlib.Data.List.Zip

/-! Helper lemmas about the limiters of the Python code. -/

namespace MiniCFD.PyLimiter

open MiniCFD.PyQuad MiniCFD.PyExpansion Polynomial
open MiniCFD.Spec.Gauss (ExactTo)

/-- A linear functional of the Taylor coefficients. -/
def Candidate.act {V : Type*} [AddCommGroup V] [Module ℝ V] (μ : ℕ → ℝ) (c : Candidate V) : V :=
  ∑ l : Fin (c.degree + 1), μ l • c.taylor l

section combine

theorem act_coef {p : ℕ} (μ : ℕ → ℝ) (c : Candidate ℝ) (h : c.degree ≤ p) :
    ∑ l ∈ Finset.range (p + 1), μ l * c.coef l = c.act μ := by
  have e : c.act μ = ∑ l ∈ Finset.range (c.degree + 1), μ l * c.coef l := by
    rw [Finset.sum_range]
    refine Finset.sum_congr rfl fun l _ => ?_
    rw [Candidate.coef, dif_pos l.2, smul_eq_mul]
  rw [e]
  refine (Finset.sum_subset (Finset.range_mono (by omega)) fun l _ hl => ?_).symm
  rw [Candidate.coef, dif_neg (by simpa using hl), mul_zero]

theorem zip_functional {p : ℕ} (μ : ℕ → ℝ) (S : ℝ) : ∀ (ws : List ℝ) (cs : List (Candidate ℝ)),
    (∀ c ∈ cs, c.degree ≤ p) →
    ∑ l ∈ Finset.range (p + 1), μ l * (List.zipWith (fun w c => c.coef l * (w / S)) ws cs).sum =
      (List.zipWith (fun w c => c.act μ * (w / S)) ws cs).sum
  | [], _, _ => by simp
  | _ :: _, [], _ => by simp
  | w :: ws, c :: cs, h => by
    simp only [List.zipWith_cons_cons, List.sum_cons, mul_add, Finset.sum_add_distrib]
    rw [zip_functional μ S ws cs fun c' hc' => h c' (List.mem_cons_of_mem _ hc')]
    congr 1
    rw [← act_coef μ c (h c List.mem_cons_self), Finset.sum_mul]
    exact Finset.sum_congr rfl fun l _ => by ring

private theorem zip_between (S lo hi : ℝ) (hS : 0 < S) (f : Candidate ℝ → ℝ) : ∀ (ws : List ℝ) (cs : List (Candidate ℝ)),
    (∀ w ∈ ws, 0 ≤ w) → (∀ c ∈ cs, lo ≤ f c ∧ f c ≤ hi) → ws.length ≤ cs.length →
    lo * (ws.sum / S) ≤ (List.zipWith (fun w c => f c * (w / S)) ws cs).sum ∧
      (List.zipWith (fun w c => f c * (w / S)) ws cs).sum ≤ hi * (ws.sum / S)
  | [], _, _, _, _ => by simp
  | _ :: _, [], _, _, h => by simp at h
  | w :: ws, c :: cs, hw, hc, hl => by
    obtain ⟨h1, h2⟩ := zip_between S lo hi hS f ws cs (fun w' h' => hw w' (List.mem_cons_of_mem _ h'))
      (fun c' h' => hc c' (List.mem_cons_of_mem _ h')) (by simpa using hl)
    obtain ⟨h3, h4⟩ := hc c List.mem_cons_self
    have hw0 : 0 ≤ w / S := div_nonneg (hw w List.mem_cons_self) hS.le
    simp only [List.zipWith_cons_cons, List.sum_cons, add_div, mul_add]
    constructor
    · nlinarith [mul_le_mul_of_nonneg_right h3 hw0]
    · nlinarith [mul_le_mul_of_nonneg_right h4 hw0]

/-- Every linear functional of the weighted mean lies between its values on the candidates. -/
theorem combine_between {p : ℕ} (μ : ℕ → ℝ) {ws : List ℝ} {cs : List (Candidate ℝ)} {lo hi : ℝ}
    (hne : ws ≠ []) (hw : ∀ w ∈ ws, 0 < w) (hl : ws.length ≤ cs.length) (hd : ∀ c ∈ cs, c.degree ≤ p)
    (hc : ∀ c ∈ cs, lo ≤ c.act μ ∧ c.act μ ≤ hi) :
    lo ≤ ∑ l ∈ Finset.range (p + 1), μ l * combine ws cs l ∧
      ∑ l ∈ Finset.range (p + 1), μ l * combine ws cs l ≤ hi := by
  have hS : 0 < ws.sum := List.sum_pos _ hw hne
  unfold combine
  rw [zip_functional μ _ ws cs hd]
  have := zip_between ws.sum lo hi hS (fun c => c.act μ) ws cs (fun w h => (hw w h).le) hc hl
  rwa [div_self hS.ne', mul_one, mul_one] at this

end combine

section weights

theorem zxhSmoothness_nonneg {c : Candidate ℝ} (hw : ∀ i, 0 ≤ c.integrator.weights i)
    (hl : 0 ≤ c.integrator.coordinate.length) : 0 ≤ zxhSmoothness c := by
  refine Finset.sum_nonneg fun d _ => mul_nonneg ?_ (div_nonneg (pow_nonneg hl _) (sq_nonneg _))
  rw [Candidate.norm, Integrator.integrate_eq]
  exact Finset.sum_nonneg fun i _ => smul_nonneg (hw i) (sq_nonneg _)

theorem zxh_between {p : ℕ} (μ : ℕ → ℝ) {epsilon wSmall lo hi : ℝ} {cs : List (Candidate ℝ)} (hne : cs ≠ [])
    (he : 0 < epsilon) (h0 : 0 < wSmall) (h1 : ((cs.length : ℝ) - 1) * wSmall < 1)
    (hs : ∀ c ∈ cs, 0 ≤ zxhSmoothness c) (hd : ∀ c ∈ cs, c.degree ≤ p)
    (hc : ∀ c ∈ cs, lo ≤ c.act μ ∧ c.act μ ≤ hi) :
    lo ≤ ∑ l ∈ Finset.range (p + 1), μ l * zxhScalar epsilon wSmall cs l ∧
      ∑ l ∈ Finset.range (p + 1), μ l * zxhScalar epsilon wSmall cs l ≤ hi := by
  unfold zxhScalar
  refine combine_between μ ?_ ?_ (by simp) hd hc
  · simpa using hne
  · intro w hw
    rw [List.mem_mapIdx] at hw
    obtain ⟨i, hi, rfl⟩ := hw
    have : 0 < epsilon + zxhSmoothness cs[i] := by
      have := hs _ (List.getElem_mem hi)
      linarith
    refine div_pos ?_ (pow_pos this 2)
    split_ifs
    · linarith
    · exact h0

theorem high_spec (epsilon kTrunc betaMean : ℝ) (he : 0 < epsilon) : ∀ cs : List (Candidate ℝ),
    (highWeights epsilon kTrunc betaMean cs).length ≤ cs.length ∧
    (∀ w ∈ highWeights epsilon kTrunc betaMean cs, 0 < w) ∧
    (cs ≠ [] → highWeights epsilon kTrunc betaMean cs ≠ [])
  | [] => by simp [highWeights]
  | c :: cs => by
    obtain ⟨h1, h2, -⟩ := high_spec epsilon kTrunc betaMean he cs
    have hw : ∀ b : ℝ, 0 < (10 : ℝ) ^ (c.degree + 1) / (b ^ 2 + epsilon) := fun b => by positivity
    unfold highWeights
    dsimp only
    split_ifs
    · refine ⟨by simp, fun w h => ?_, by simp⟩
      rw [List.mem_singleton] at h
      rw [h]; exact hw _
    · refine ⟨by simpa using h1, fun w h => ?_, by simp⟩
      rcases List.mem_cons.mp h with rfl | h
      · exact hw _
      · exact h2 w h

/-- All candidates. -/
def LwaCandidates.all {V : Type*} (cs : LwaCandidates V) : List (Candidate V) :=
  cs.high ++ [cs.low, cs.first] ++ cs.second.toList

theorem lwa_between {p : ℕ} (μ : ℕ → ℝ) {epsilon kEpsilon kTrunc lo hi : ℝ} {cs : LwaCandidates ℝ}
    (he : 0 < epsilon) (hk : 0 ≤ kEpsilon) (hd : ∀ c ∈ cs.all, c.degree ≤ p)
    (hc : ∀ c ∈ cs.all, lo ≤ c.act μ ∧ c.act μ ≤ hi) :
    lo ≤ ∑ l ∈ Finset.range (p + 1), μ l * lwaScalar epsilon kEpsilon kTrunc cs l ∧
      ∑ l ∈ Finset.range (p + 1), μ l * lwaScalar epsilon kEpsilon kTrunc cs l ≤ hi := by
  have key : ∀ ws : List ℝ, ws ≠ [] → (∀ w ∈ ws, 0 < w) → ws.length ≤ cs.all.length →
      lo ≤ ∑ l ∈ Finset.range (p + 1), μ l * combine ws cs.all l ∧
      ∑ l ∈ Finset.range (p + 1), μ l * combine ws cs.all l ≤ hi := fun ws h1 h2 h3 => combine_between μ h1 h2 h3 hd hc
  unfold lwaScalar
  obtain ⟨h1, h2, h3⟩ := high_spec epsilon kTrunc
    ((lwaSmoothness cs.low + lwaSmoothness cs.first + lwaSmoothness (cs.second.getD cs.first)) / 3) he cs.high
  have hpos : ∀ b x y : ℝ, 0 < b ^ 2 + (epsilon + kEpsilon * (x ^ 2 + y ^ 2) / 2) := fun b x y => by positivity
  refine key _ ?_ ?_ ?_
  · split_ifs with h
    · simp
    · intro h'
      by_cases hh : cs.high = []
      · rw [h', hh] at h; exact h rfl
      · exact h3 hh h'
  · intro w hw
    split_ifs at hw with h
    · rw [List.mem_append, List.mem_append] at hw
      rcases hw with (hw | hw) | hw
      · exact h2 w hw
      · simp only [List.mem_cons, List.not_mem_nil, or_false] at hw
        rcases hw with rfl | rfl
        · exact div_pos (by norm_num) (hpos _ _ _)
        · exact div_pos one_pos (hpos _ _ _)
      · cases hs : cs.second with
        | none => rw [hs] at hw; simp at hw
        | some b =>
          rw [hs] at hw
          simp only [List.mem_cons, List.not_mem_nil, or_false] at hw
          rw [hw]
          exact div_pos one_pos (hpos _ _ _)
    · exact h2 w hw
  · unfold LwaCandidates.all
    split_ifs with h
    · simp only [List.length_append, h]
      cases cs.second <;> simp
    · simp only [List.length_append]; omega

end weights

section components
variable {p m : ℕ}

theorem act_component (μ : ℕ → ℝ) (left : Matrix (Fin m) (Fin m) ℝ) (s : Setup p) (i : Fin m)
    (c : Candidate (Fin m → ℝ)) : (c.component left s i).act μ = left.mulVec (c.act μ) i := by
  unfold Candidate.act Candidate.component
  dsimp only
  rw [Matrix.mulVec_sum, Finset.sum_apply]
  refine Finset.sum_congr rfl fun l _ => ?_
  rw [Matrix.mulVec_smul]
  rfl

theorem act_system (μ : ℕ → ℝ) {left right : Matrix (Fin m) (Fin m) ℝ} (hrl : right * left = 1)
    (new : Fin m → ℕ → ℝ) (a : Fin m → ℝ)
    (h : ∀ i, ∑ l ∈ Finset.range (p + 1), μ l * new i l = left.mulVec a i) :
    ∑ l : Fin (p + 1), μ l • right.mulVec (fun i => new i l) = a := by
  have e : ∑ l : Fin (p + 1), μ l • right.mulVec (fun i => new i l) =
      right.mulVec (∑ l : Fin (p + 1), μ l • fun i => new i l) := by
    rw [Matrix.mulVec_sum]
    exact Finset.sum_congr rfl fun l _ => (Matrix.mulVec_smul _ _ _).symm
  rw [e]
  have e2 : (∑ l : Fin (p + 1), μ l • fun i => new i l) = left.mulVec a := by
    funext i
    rw [← h i, Finset.sum_apply, Finset.sum_range]
    rfl
  rw [e2, Matrix.mulVec_mulVec, hrl, Matrix.one_mulVec]

end components

section expansions
variable {p : ℕ} {c : Coordinate} {s : Setup p}

theorem gauss_weights {rule : Rule p} (h : ExactTo rule.apply (2 * p + 1)) (i : Fin (p + 1)) : 0 < rule.w i := by
  have hinj := gauss_injective h
  set q : ℝ[X] := Lagrange.basis Finset.univ rule.x i with hq
  have hdeg : q.natDegree = p := by
    rw [hq, Lagrange.natDegree_basis hinj.injOn (Finset.mem_univ i)]; simp
  have hne : q ≠ 0 := Lagrange.basis_ne_zero hinj.injOn (Finset.mem_univ i)
  have h0 := h (q ^ 2) (by rw [natDegree_pow, hdeg]; omega)
  simp only [eval_pow] at h0
  have hz : rule.apply (fun x => q.eval x ^ 2) = rule.w i := by
    rw [Rule.apply, Finset.sum_eq_single i]
    · rw [hq, Lagrange.eval_basis_self hinj.injOn (Finset.mem_univ i)]; ring
    · intro j _ hj
      rw [hq, Lagrange.eval_basis_of_ne (Ne.symm hj) (Finset.mem_univ j)]; ring
    · simp
  rw [← hz, h0]
  exact integral_sq_pos (by norm_num) hne

theorem built_integrator (hc : c.xLeft < c.xRight) (h : Built c s) :
    (∀ i, 0 < s.integrator.weights i) ∧ s.integrator.coordinate = c := by
  have hj : ∀ x, 0 < c.localToJacobian x := fun x => by
    rw [c.eq_linear.2.2.1]; linarith
  have key : ∀ rule : Rule p, (∀ i, 0 < rule.w i) → s.integrator = rule.integrator c →
      (∀ i, 0 < s.integrator.weights i) ∧ s.integrator.coordinate = c := by
    intro rule hw e
    rw [e]
    exact ⟨fun i => mul_pos (hw i) (hj _), rfl⟩
  cases h with
  | uniform rule exact hu =>
    obtain ⟨_, _, hk, hco, hi, _⟩ := lagrange_sane (by simp) hc hu
    exact key rule (gauss_weights exact) hi
  | legendreRoots rule exact hu =>
    obtain ⟨_, _, hk, hco, hi, _⟩ := lagrange_sane (by simp) hc hu
    exact key rule (gauss_weights exact) hi
  | lobatto hu =>
    obtain ⟨rule, hr', hu⟩ := lobatto_cases hu
    obtain ⟨_, _, hk, hco, hi, hn, _⟩ := lagrange_sane (by simp) hc hu
    exact key rule (lobatto_sound hr').2.2.2.2.1 hi
  | modal rule exact hu =>
    obtain ⟨_, hk, hco, hi, _, hb⟩ := modal_sane hc hu
    exact key rule (gauss_weights exact) hi

/-- The functional that takes the mean over an element. -/
noncomputable def meanMoments (c : Coordinate) (l : ℕ) : ℝ :=
  (c.xRight - c.xLeft)⁻¹ * ∫ x in c.xLeft..c.xRight, (x - c.xCenter) ^ l

variable {V : Type*} [NormedAddCommGroup V] [NormedSpace ℝ V]

theorem value_act (hco : s.coordinate = c) (st : State p V) (x : ℝ) :
    s.value st x = (own s st).act fun l => (x - c.xCenter) ^ l := by
  simp only [Setup.value, taylorValue, taylorValues_eq, hco]; rfl

theorem integral_act [CompleteSpace V] (t : Candidate V) :
    ∫ x in c.xLeft..c.xRight, t.act (fun l => (x - c.xCenter) ^ l) =
      ∑ l : Fin (t.degree + 1), (∫ x in c.xLeft..c.xRight, (x - c.xCenter) ^ (l : ℕ)) • t.taylor l := by
  unfold Candidate.act
  rw [intervalIntegral.integral_finset_sum]
  · simp only [intervalIntegral.integral_smul_const]
  · intro l _
    exact Continuous.intervalIntegrable (by fun_prop) _ _

/-- A reached state's average is the mean over the element. -/
theorem average_act [CompleteSpace V] (hc : c.xLeft < c.xRight) (h : Built c s) (hl : s.kind = .lobatto → p ≤ 5)
    {st : State p V} (hr : Reached s st) : (own s st).act (meanMoments c) = st.average := by
  have h1 := average_eq hc h hl hr
  simp only [value_act (h.sane hc).2] at h1
  rw [integral_act] at h1
  have hne : c.xRight - c.xLeft ≠ 0 := by linarith
  have : st.average = (c.xRight - c.xLeft)⁻¹ • (c.xRight - c.xLeft) • st.average := by
    rw [smul_smul, inv_mul_cancel₀ hne, one_smul]
  rw [this, h1, Finset.smul_sum]
  unfold Candidate.act meanMoments
  exact Finset.sum_congr rfl fun l _ => by rw [smul_smul]

/-- The function of a state of any element, moved, is a polynomial. -/
theorem taylor_polynomial (x0 t : ℝ) (a : Fin (p + 1) → V) :
    ∃ v : Fin (p + 1) → V, ∀ x, taylorValue x0 a (x - t) = polynomial v x := by
  refine ⟨fun k => ∑ l : Fin (p + 1), ((X - C (x0 + t)) ^ (l : ℕ) : ℝ[X]).coeff k • a l, fun x => ?_⟩
  simp only [taylorValue, taylorValues_eq, polynomial, Finset.smul_sum]
  rw [Finset.sum_comm]
  refine Finset.sum_congr rfl fun l _ => ?_
  simp only [smul_smul]
  rw [← Finset.sum_smul]
  congr 1
  have e := eval_eq_sum_range' (p := ((X - C (x0 + t)) ^ (l : ℕ) : ℝ[X])) (n := p + 1) (by
    rw [natDegree_pow, natDegree_X_sub_C, mul_one]; exact l.2) x
  rw [Finset.sum_range] at e
  simp only [eval_pow, eval_sub, eval_X, eval_C] at e
  rw [show x - t - x0 = x - (x0 + t) by ring, e]
  exact Finset.sum_congr rfl fun k _ => mul_comm _ _

theorem neighbour_polynomial (b : Neighbour p V) (a : V) :
    ∃ v : Fin (p + 1) → V, ∀ x, b.value x + a = polynomial v x := by
  obtain ⟨v, hv⟩ := taylor_polynomial b.setup.coordinate.xCenter b.shift b.state.taylor
  refine ⟨fun k => v k + if k = 0 then a else 0, fun x => ?_⟩
  have : b.value x = polynomial v x := hv x
  rw [this]
  simp only [polynomial, smul_add, Finset.sum_add_distrib]
  congr 1
  rw [Finset.sum_eq_single 0]
  · simp
  · intro k _ hk; simp [hk]
  · simp

/-- Away from Lobatto nodes the borrowed polynomial is the neighbour's, moved to the own average. -/
theorem borrow_value (hc : c.xLeft < c.xRight) (h : Built c s) (hk : s.kind ≠ .lobatto) (st : State p V) (b : Neighbour p V)
    (x : ℝ) : (zxhBorrow s st b).act (fun l => (x - c.xCenter) ^ l) = b.value x + (st.average - s.integrator.average b.value) := by
  obtain ⟨v, hv⟩ := neighbour_polynomial b (st.average - s.integrator.average b.value)
  have e : (fun x => b.value x + st.average - s.integrator.average b.value) = polynomial v := by
    funext y; rw [← hv, add_sub_assoc]
  unfold zxhBorrow
  dsimp only
  rw [← value_act (h.sane hc).2, e, approximate_reproduces_partial hc h hk, hv]

theorem integrator_polynomial [CompleteSpace V] (hc : c.xLeft < c.xRight) (h : Built c s) (hl : s.kind = .lobatto → p ≤ 5)
    (v : Fin (p + 1) → V) :
    (c.xRight - c.xLeft) • s.integrator.average (polynomial v) = ∫ x in c.xLeft..c.xRight, polynomial v x := by
  have key : ∀ rule : Rule p, ∀ d, p ≤ d → ExactTo rule.apply d → s.integrator = rule.integrator c →
      (c.xRight - c.xLeft) • s.integrator.average (polynomial v) = ∫ x in c.xLeft..c.xRight, polynomial v x := by
    intro rule d hd exact hi
    have hx : ∀ l : Fin (p + 1), (rule.integrator c).integrate (fun x => x ^ (l : ℕ)) =
        ∫ x in c.xLeft..c.xRight, x ^ (l : ℕ) := by
      intro l
      have := integrate_exact exact c (X ^ (l : ℕ)) (by rw [natDegree_X_pow]; omega)
      simpa only [eval_pow, eval_X] using this
    have hlen : (rule.integrator c).coordinate.length = c.xRight - c.xLeft := c.eq_linear.1
    rw [hi, Integrator.average, hlen, smul_smul, mul_inv_cancel₀ (by linarith), one_smul]
    unfold polynomial
    rw [intervalIntegral.integral_finset_sum]
    · simp only [intervalIntegral.integral_smul_const, ← hx, Integrator.integrate_eq,
        Finset.smul_sum, Finset.sum_smul, smul_smul, smul_eq_mul]
      exact Finset.sum_comm
    · intro l _
      exact Continuous.intervalIntegrable (by fun_prop) _ _
  cases h with
  | uniform rule exact hu =>
    obtain ⟨_, _, hk, hco, hi, _⟩ := lagrange_sane (by simp) hc hu
    exact key rule _ (by omega) exact hi
  | legendreRoots rule exact hu =>
    obtain ⟨_, _, hk, hco, hi, _⟩ := lagrange_sane (by simp) hc hu
    exact key rule _ (by omega) exact hi
  | lobatto hu =>
    obtain ⟨rule, hr', hu⟩ := lobatto_cases hu
    obtain ⟨_, _, hk, hco, hi, hn, _⟩ := lagrange_sane (by simp) hc hu
    have h1 : 1 ≤ p := by
      rcases Nat.eq_zero_or_pos p with rfl | h
      · cases hr'
      · exact h
    obtain ⟨r, hr1, hex⟩ := lobatto_exact h1 (hl hk)
    rw [hr'] at hr1
    cases hr1
    exact key rule _ (by omega) hex hi
  | modal rule exact hu =>
    obtain ⟨_, hk, hco, hi, _, hb⟩ := modal_sane hc hu
    exact key rule _ (by omega) exact hi

theorem mean_integral [CompleteSpace V] (hc : c.xLeft < c.xRight) (t : Candidate V) :
    (c.xRight - c.xLeft) • t.act (meanMoments c) = ∫ x in c.xLeft..c.xRight, t.act fun l => (x - c.xCenter) ^ l := by
  rw [integral_act]
  unfold Candidate.act meanMoments
  rw [Finset.smul_sum]
  refine Finset.sum_congr rfl fun l _ => ?_
  rw [smul_smul, ← mul_assoc, mul_inv_cancel₀ (by linarith), one_mul]

theorem borrow_average [CompleteSpace V] (hc : c.xLeft < c.xRight) (h : Built c s) (hk : s.kind ≠ .lobatto) (st : State p V)
    (b : Neighbour p V) : (zxhBorrow s st b).act (meanMoments c) = st.average := by
  have h1 := mean_integral hc (zxhBorrow s st b)
  simp only [borrow_value hc h hk] at h1
  obtain ⟨v, hv⟩ := neighbour_polynomial b 0
  have e : b.value = polynomial v := by funext x; rw [← hv, add_zero]
  have hcont : Continuous (polynomial v) := by unfold polynomial; fun_prop
  rw [e, intervalIntegral.integral_add (hcont.intervalIntegrable _ _) (continuous_const.intervalIntegrable _ _),
    ← integrator_polynomial hc h (fun h' => absurd h' hk), intervalIntegral.integral_const, ← smul_add] at h1
  have hne : c.xRight - c.xLeft ≠ 0 := by linarith
  have := smul_right_injective V hne h1
  rw [this]; abel

/-- The Taylor coefficients are determined by the function. -/
theorem taylor_unique {rule : Rule p} (exact : ExactTo rule.apply (2 * p + 1)) (hc : c.xLeft < c.xRight)
    {t t' : Fin (p + 1) → V} (h : ∀ x, taylorValue c.xCenter t x = taylorValue c.xCenter t' x) : t = t' := by
  obtain ⟨⟨s, hs⟩, -⟩ := constructors hc exact
  have hB : Built c s := .uniform rule exact hs
  obtain ⟨_, _, hk, hco, _⟩ := lagrange_sane (by simp) hc hs
  have hv : ∀ t : Fin (p + 1) → V, ∀ j, (setTaylor s t).coeff j = taylorValue c.xCenter t (s.points j) := by
    intro t j
    rw [← value_at_points hc hB (by simp [hk]) (.taylor t rfl), Setup.value, hco]; rfl
  have e : (setTaylor s t).coeff = (setTaylor s t').coeff := by
    funext j; rw [hv, hv, h]
  have h1 := (round_trip hc hB t t).2.2.2
  have h2 := (round_trip hc hB t' t').2.2.2
  rw [e, h2] at h1
  exact congrArg State.taylor h1.symm

/-- A truncated Legendre expansion is a Legendre expansion of lower degree. -/
theorem truncate_eq {d : ℕ} (hd : d ≤ p) (hc : c.xLeft < c.xRight) {rule : Rule p} {rule' : Rule d} {s' : Setup d}
    (h : modal c rule = some s) (h' : modal c rule' = some s') (st : State p V) :
    (truncate hd s st).taylor = (setCoeff s' fun k => st.coeff (Fin.castLE (by omega) k)).taylor := by
  obtain ⟨-, -, -, -, h1, -⟩ := modal_sane hc h
  obtain ⟨-, -, -, -, h2, -⟩ := modal_sane hc h'
  unfold truncate setCoeff
  dsimp only
  congr 1
  funext r k
  rw [h1, h2]
  rfl

end expansions

end MiniCFD.PyLimiter
