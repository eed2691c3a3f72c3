import Verif.Lemmas.PyPoly
import Mathlib.Tactic.NormNum
import Mathlib.Analysis.SpecialFunctions.Integrals.Basic

/-!
# C92: correction functions and Lagrange polynomials of the Python code

`eval_legendre` enters through its recurrence, `roots_legendre` through its exactness.
-/

namespace MiniCFD.PyPoly
open MiniCFD.Vincent (legendre leg leg_eval dleg dleg_zero dleg_succ dleg_neg dleg_one legendre_one
  legendre_neg hasDerivAt_legendre leg_orthogonal integral integral_add integral_sub integral_C_mul
  integral_zero leg_derivative integral_sum)
open MiniCFD.Spec.PyPoly Polynomial

/-! ### Radau -/

/-- The functions of `Radau(k)` in closed form. -/
theorem radau_value (k : Nat) (x : ℝ) : radauValue (k + 1) x =
    ((legendre (k + 1) x + legendre k x) / 2,
      (-1) ^ (k + 1) * (legendre (k + 1) x - legendre k x) / 2) := by
  simp only [radauValue, evalLegendre_succ_sub, evalLegendre_nat]
  congr 1
  ring

/-- They are a pair of correction functions with the names exchanged: "right" belongs to the left
end. -/
theorem radau_pair (k : Nat) :
    IsPair (k + 1) (fun x => (radauValue (k + 1) x).swap) (fun x => (radauGradient (k + 1) x).swap) where
  poly := by
    refine ⟨C (1 / 2) * (leg (k + 1) + leg k), ?_, fun x => ?_⟩
    · refine le_trans (natDegree_C_mul_le _ _) (le_trans (natDegree_add_le _ _) (max_le ?_ ?_))
      · exact FR.leg_natDegree _
      · exact le_trans (FR.leg_natDegree _) (by omega)
    · rw [radau_value]
      simp only [Prod.swap, eval_mul, eval_C, eval_add, leg_eval]
      ring
  mirror := fun x => by
    simp only [radau_value, Prod.swap, legendre_neg, pow_succ]
    ring
  near := by simp [radau_value, legendre_one]
  far := by
    simp only [radau_value, Prod.swap, legendre_neg, legendre_one, pow_succ]
    ring
  differentiates := fun x => by
    have h1 := hasDerivAt_legendre (k + 1) x
    have h0 := hasDerivAt_legendre k x
    simp only [radau_value, Prod.swap, radauGradient, radau_loop]
    constructor
    · have h := ((h1.sub h0).const_mul ((-1) ^ (k + 1))).div_const 2
      refine h.congr_deriv ?_
      ring
    · exact (h1.add h0).div_const 2

/-- `R_k` is orthogonal to all polynomials of degree at most `k - 2`. -/
theorem radau_orthogonal (k : Nat) : Orthogonal (fun x => (radauValue (k + 1) x).1) k ∧
    Orthogonal (fun x => (radauValue (k + 1) x).2) k := by
  have h : ∀ q : ℝ[X], q.degree < k → integral (leg (k + 1) * q) = 0 ∧ integral (leg k * q) = 0 :=
    fun q hq => ⟨leg_orthogonal _ q (lt_trans hq (by exact_mod_cast Nat.lt_succ_self k)),
      leg_orthogonal _ q hq⟩
  constructor <;> intro q hq <;> obtain ⟨ha, hb⟩ := h q hq
  · have : integral (C (1 / 2) * (leg (k + 1) * q + leg k * q)) = 0 := by
      rw [integral_C_mul, integral_add, ha, hb]; ring
    rw [integral] at this
    rw [← this]
    congr 1
    funext x
    simp only [radau_value, eval_mul, eval_C, eval_add, leg_eval]
    ring
  · have : integral (C ((-1) ^ (k + 1) / 2) * (leg (k + 1) * q - leg k * q)) = 0 := by
      rw [integral_C_mul, integral_sub, ha, hb]; ring
    rw [integral] at this
    rw [← this]
    congr 1
    funext x
    simp only [radau_value, eval_mul, eval_C, eval_sub, leg_eval]
    ring

/-! ### Vincent -/

theorem vincent_eq {degree : Nat} {mu : Nat → ℝ} {v : Vincent} (h : vincent degree mu = some v) :
    1 ≤ degree ∧ degree ≤ 10 ∧ v = ⟨degree - 1, mu (degree - 1), 1 - mu (degree - 1)⟩ := by
  unfold vincent at h
  split_ifs at h with hd
  exact ⟨hd.1, hd.2, (Option.some.inj h).symm⟩

theorem right_succ (k : Nat) (c x : ℝ) : (Vincent.mk (k + 1) c (1 - c)).right x =
    (legendre (k + 1) x + (1 - c) * legendre k x + c * legendre (k + 2) x) / 2 := by
  simp only [Vincent.right, evalLegendre_nat, evalLegendre_succ_sub, evalLegendre_next]

theorem right_zero (c x : ℝ) : (Vincent.mk 0 c (1 - c)).right x = (1 + (1 - c) + c * x) / 2 := by
  have h0 : evalLegendre ((0 : Nat) : ℤ) x = 1 := rfl
  have h1 : evalLegendre (((0 : Nat) : ℤ) + 1) x = x := evalLegendre_next 0 x
  simp only [Vincent.right, evalLegendre_neg_one, h0, h1]
  ring

/-- For every degree above one, and for degree one with the ratio one, the functions are a pair of
correction functions. -/
theorem vincent_pair_partial {degree : Nat} {mu : Nat → ℝ} {v : Vincent} (h : vincent degree mu = some v)
    (hd : 2 ≤ degree ∨ mu 0 = 1) : IsPair degree v.value v.gradient := by
  obtain ⟨h1, h10, rfl⟩ := vincent_eq h
  obtain ⟨k, rfl⟩ : ∃ k, degree = k + 1 := ⟨degree - 1, by omega⟩
  simp only [Nat.add_sub_cancel]
  cases k with
  | zero =>
    have hmu : mu 0 = 1 := by rcases hd with h | h; · omega
                              · exact h
    rw [hmu]
    have hr : ∀ x, (Vincent.mk 0 1 (1 - 1)).right x = (1 + x) / 2 := fun x => by
      rw [right_zero]; ring
    have hg : ∀ x, (Vincent.mk 0 1 (1 - 1)).gradient x = (-1 / 2, 1 / 2) := fun x => by
      simp only [Vincent.gradient, vincent_loop, dleg_succ, dleg_zero, legendre, if_true]
      norm_num
    refine ⟨⟨C (1 / 2) * (1 + X), ?_, fun x => ?_⟩, fun x => ?_, ?_, ?_, fun x => ?_⟩
    · exact le_trans (natDegree_C_mul_le _ _) (le_trans (natDegree_add_le _ _) (by simp))
    · simp only [Vincent.value, hr, eval_mul, eval_C, eval_add, eval_one, eval_X]; ring
    · simp [Vincent.value]
    · simp only [Vincent.value, hr]; norm_num
    · simp only [Vincent.value, hr]; norm_num
    · rw [hg]
      simp only [Vincent.value, hr]
      constructor
      · refine (((hasDerivAt_id x).neg.const_add 1).div_const 2).congr_deriv ?_
        norm_num
      · exact ((hasDerivAt_id x).const_add 1).div_const 2
  | succ k =>
    generalize mu (k + 1) = c
    refine ⟨⟨C (1 / 2) * (leg (k + 1) + C (1 - c) * leg k + C c * leg (k + 2)), ?_, fun x => ?_⟩,
      fun x => ?_, ?_, ?_, fun x => ?_⟩
    · refine le_trans (natDegree_C_mul_le _ _) (le_trans (natDegree_add_le _ _) (max_le
        (le_trans (natDegree_add_le _ _) (max_le ?_ ?_)) ?_))
      · exact le_trans (FR.leg_natDegree _) (by omega)
      · exact le_trans (natDegree_C_mul_le _ _) (le_trans (FR.leg_natDegree _) (by omega))
      · exact le_trans (natDegree_C_mul_le _ _) (FR.leg_natDegree _)
    · simp only [Vincent.value, right_succ, eval_mul, eval_C, eval_add, leg_eval]; ring
    · simp [Vincent.value]
    · simp only [Vincent.value, right_succ, legendre_one]; ring
    · simp only [Vincent.value, right_succ, legendre_neg, legendre_one, pow_succ]; ring
    · have hr : ∀ y, HasDerivAt (Vincent.mk (k + 1) c (1 - c)).right
          ((dleg (k + 1) y + (1 - c) * dleg k y + c * dleg (k + 2) y) / 2) y := by
        intro y
        have e : (Vincent.mk (k + 1) c (1 - c)).right = fun x =>
            (legendre (k + 1) x + (1 - c) * legendre k x + c * legendre (k + 2) x) / 2 :=
          funext fun x => right_succ k c x
        rw [e]
        exact (((hasDerivAt_legendre (k + 1) y).add
          ((hasDerivAt_legendre k y).const_mul (1 - c))).add
          ((hasDerivAt_legendre (k + 2) y).const_mul c)).div_const 2
      simp only [Vincent.value, Vincent.gradient, vincent_loop]
      rw [if_neg (by omega), Nat.add_sub_cancel]
      constructor
      · have h := (hr (-x)).comp x (hasDerivAt_neg x)
        refine HasDerivAt.congr_deriv h ?_
        cases k with
        | zero => simp only [dleg_neg, dleg_zero, zero_add]; ring
        | succ k => simp only [dleg_neg, pow_succ]; ring
      · exact hr x

/-- Of degree one and with another ratio the right function does not vanish at the left end:
`eval_legendre(-1, x)` is one. -/
theorem vincent_degree_one (mu : Nat → ℝ) (hmu : mu 0 ≠ 1) :
    ∃ v, vincent 1 mu = some v ∧ (v.value (-1)).2 = 1 - mu 0 ∧ ¬ IsPair 1 v.value v.gradient := by
  have hv : ((Vincent.mk 0 (mu 0) (1 - mu 0)).value (-1)).2 = 1 - mu 0 := by
    simp only [Vincent.value, right_zero]; ring
  refine ⟨⟨0, mu 0, 1 - mu 0⟩, rfl, hv, fun h => hmu ?_⟩
  have := h.far
  rw [hv] at this
  linarith

/-- With the default ratio the correction of degree one has no gradient at all: a scheme that uses it
never changes its solution. -/
theorem vincent_default_dead : ∃ v, vincent 1 muLobatto = some v ∧ ∀ x, v.gradient x = (0, 0) := by
  refine ⟨⟨0, muLobatto 0, 1 - muLobatto 0⟩, rfl, fun x => ?_⟩
  rw [Vincent.gradient, vincent_loop, dleg_zero]
  simp [muLobatto]

/-- The table of gradients never changes an answer. -/
theorem vincent_memo (v : Vincent) (xs : List ℝ) : v.calls xs [] = xs.map v.gradient := by
  have key : ∀ (xs : List ℝ) (memo : Memo), (∀ e ∈ memo, e.2 = v.gradient e.1) →
      v.calls xs memo = xs.map v.gradient := by
    intro xs
    induction xs with
    | nil => intro _ _; rfl
    | cons x xs ih =>
      intro memo hm
      have hc : (v.call memo x).1 = v.gradient x ∧ ∀ e ∈ (v.call memo x).2, e.2 = v.gradient e.1 := by
        unfold Vincent.call
        split
        · rename_i e he
          have h1 := List.mem_of_find?_eq_some he
          have h2 : e.1 = x := by simpa using List.find?_some he
          exact ⟨by rw [hm e h1, h2], hm⟩
        · refine ⟨rfl, fun e he => ?_⟩
          rcases List.mem_cons.1 he with rfl | he
          · rfl
          · exact hm e he
      rw [Vincent.calls, List.map_cons]
      dsimp only
      rw [hc.1, ih _ hc.2]
  exact key xs [] (by simp)

/-! ### Huynh -/

/-- The linear system has a solution for every degree and every number of lumping conditions. -/
theorem huynh_regular {d m : Nat} (hd : 1 ≤ d) (hm : 1 ≤ m) (hmd : m ≤ d) {roots : Roots d}
    (hr : GaussLegendre roots.x roots.w) : (huynhMatrix d m roots).det ≠ 0 := by
  intro h0
  obtain ⟨v, hv, hz⟩ := Matrix.exists_mulVec_eq_zero_iff.2 h0
  have hrow := fun l => (huynh_rows hd hm hr v l).symm.trans (congrFun hz l)
  have hG : coeffPoly v = 0 := by
    refine huynh_kernel hmd _ (coeffPoly_natDegree v) ?_ ?_ ?_
    · intro l hl
      have := hrow ⟨l, by omega⟩
      rwa [if_pos hl] at this
    · intro l hl
      have := hrow ⟨l + m, by omega⟩
      rw [if_neg (by simp), if_pos (by simp only; omega), Nat.add_sub_cancel] at this
      exact this
    · have := hrow (Fin.last d)
      rw [if_neg (by simp only [Fin.val_last]; omega), if_neg (by simp)] at this
      exact this
  apply hv
  funext i
  rw [← coeffPoly_coeff v i, hG]
  simp

/-- The constructor accepts exactly the degrees 1 to 10 with 1 to `degree` lumping conditions. -/
theorem huynh_defined (d m : Nat) {roots : Roots d} (hr : GaussLegendre roots.x roots.w) :
    (∃ coeff, huynh d m roots = some coeff) ↔ (1 ≤ d ∧ d ≤ 10 ∧ 1 ≤ m ∧ m ≤ d) := by
  unfold huynh
  dsimp only
  split_ifs with h hdet
  · exact absurd hdet (huynh_regular h.1 h.2.2.1 h.2.2.2 hr)
  · simp [h]
  · simp [h]

/-- What it builds: the polynomial of degree at most `d` with the lumping conditions, the
orthogonality conditions and the boundary value announced in the documentation. -/
theorem huynh_conditions {d m : Nat} {roots : Roots d} (hr : GaussLegendre roots.x roots.w)
    {coeff : Fin (d + 1) → ℝ} (h : huynh d m roots = some coeff) :
    ∃ g : ℝ[X], g.natDegree ≤ d ∧ (∀ x, (huynhValue coeff x).2 = g.eval x) ∧ Lumped g m ∧
      Orthogonal (fun x => (huynhValue coeff x).2) (d - m) ∧ g.eval 1 = 1 := by
  unfold huynh at h
  dsimp only at h
  split_ifs at h with hc hdet
  have hv : (huynhMatrix d m roots).mulVec coeff = huynhRhs d := by
    rw [← Option.some.inj h, Matrix.mulVec_mulVec, Matrix.mul_nonsing_inv _ (isUnit_iff_ne_zero.2 hdet),
      Matrix.one_mulVec]
  have hrow := fun l => (huynh_rows hc.1 hc.2.2.1 hr coeff l).symm.trans (congrFun hv l)
  have ho : ∀ l < d - m, integral (leg l * coeffPoly coeff) = 0 := by
    intro l hl
    have := hrow ⟨l + m, by omega⟩
    rw [if_neg (by simp), if_pos (by simp only; omega), Nat.add_sub_cancel, huynhRhs,
      if_neg (by simp only; omega)] at this
    exact this
  refine ⟨coeffPoly coeff, coeffPoly_natDegree _, fun x => (coeffPoly_eval _ _).symm, ?_, ?_, ?_⟩
  · intro l hl
    have := hrow ⟨l, by omega⟩
    rw [if_pos hl, huynhRhs, if_neg (by simp only; omega)] at this
    exact this
  · intro q hq
    have := orthogonal_of_leg (coeffPoly coeff) (d - m) ho q hq
    rw [integral] at this
    rw [← this]
    congr 1
    funext x
    rw [eval_mul, coeffPoly_eval, mul_comm]
    rfl
  · have := hrow (Fin.last d)
    rw [if_neg (by simp only [Fin.val_last]; omega), if_neg (by simp), huynhRhs, if_pos (by simp)] at this
    exact this

/-- These conditions determine it. -/
theorem huynh_unique {d m : Nat} {roots : Roots d} (hr : GaussLegendre roots.x roots.w)
    {coeff : Fin (d + 1) → ℝ} (h : huynh d m roots = some coeff) (p : ℝ[X]) (hp : p.natDegree ≤ d)
    (hl : Lumped p m) (ho : Orthogonal (fun x => p.eval x) (d - m)) (h1 : p.eval 1 = 1) (x : ℝ) :
    (huynhValue coeff x).2 = p.eval x := by
  obtain ⟨g, hg, hgx, hgl, hgo, hg1⟩ := huynh_conditions hr h
  have hmd : m ≤ d := ((huynh_defined d m hr).1 ⟨coeff, h⟩).2.2.2
  have hz : g - p = 0 := by
    refine huynh_kernel hmd _ (le_trans (natDegree_sub_le _ _) (max_le hg hp)) ?_ ?_ ?_
    · intro l hlm
      rw [iterate_derivative_sub, eval_sub, hgl l hlm, hl l hlm, sub_zero]
    · intro l hlm
      have hdeg : (leg l).degree < (d - m : Nat) := by
        refine lt_of_le_of_lt (degree_le_of_natDegree_le (FR.leg_natDegree l)) ?_
        exact_mod_cast hlm
      have ha := hgo (leg l) hdeg
      have hb := ho (leg l) hdeg
      have ha' : integral (g * leg l) = 0 := by
        rw [integral, ← ha]; congr 1; funext x; dsimp only; rw [eval_mul, hgx]
      have hb' : integral (p * leg l) = 0 := by
        rw [integral, ← hb]; congr 1; funext x; rw [eval_mul]
      rw [show leg l * (g - p) = g * leg l - p * leg l by ring, integral_sub, ha', hb', sub_zero]
    · rw [eval_sub, hg1, h1, sub_self]
  rw [hgx, sub_eq_zero.1 hz]

/-- A pair of correction functions. -/
theorem huynh_pair {d m : Nat} {roots : Roots d} (hr : GaussLegendre roots.x roots.w)
    {coeff : Fin (d + 1) → ℝ} (h : huynh d m roots = some coeff) :
    IsPair d (huynhValue coeff) (huynhGradient coeff) := by
  obtain ⟨g, hg, hgx, hgl, _, hg1⟩ := huynh_conditions hr h
  have hm := ((huynh_defined d m hr).1 ⟨coeff, h⟩).2.2.1
  have hgr : ∀ x, HasDerivAt (huynhRight coeff) (huynhRightGrad coeff x) x := by
    intro x
    have e : huynhRight coeff = fun x => (coeffPoly coeff).eval x :=
      funext fun x => (coeffPoly_eval coeff x).symm
    rw [e]
    refine ((coeffPoly coeff).hasDerivAt x).congr_deriv ?_
    rw [coeffPoly, derivative_sum, eval_finsetSum, huynhRightGrad]
    refine Finset.sum_congr rfl fun i _ => ?_
    rw [derivative_C_mul_X_pow, eval_mul, eval_C, eval_pow, eval_X, gradPower]
    split_ifs with h0
    · simp [h0]
    · rfl
  refine ⟨⟨g, hg, hgx⟩, fun x => rfl, by rw [hgx, hg1], ?_, fun x => ⟨?_, hgr x⟩⟩
  · rw [hgx]; exact hgl 0 hm
  · refine ((hgr (-x)).comp x (hasDerivAt_neg x)).congr_deriv ?_
    simp [huynhGradient]

/-- One lumping condition: the correction of Vincent that gives the discontinuous Galerkin scheme. -/
theorem huynh_galerkin {d : Nat} {roots : Roots d} (hr : GaussLegendre roots.x roots.w)
    {coeff : Fin (d + 1) → ℝ} (h : huynh d 1 roots = some coeff) {v : Vincent}
    (hv : vincent d muGalerkin = some v) (x : ℝ) : huynhValue coeff x = v.value x := by
  obtain ⟨⟨p, hp, hpx⟩, _, hn, hf, _⟩ := vincent_pair_partial hv (Or.inr rfl)
  have hd := (vincent_eq hv).1
  have key : ∀ y, (huynhValue coeff y).2 = (v.value y).2 := by
    intro y
    rw [hpx]
    refine huynh_unique hr h p hp ?_ ?_ ?_ y
    · intro l hl
      obtain rfl : l = 0 := by omega
      rw [← hf, hpx]; rfl
    · intro q hq
      obtain ⟨_, _, rfl⟩ := vincent_eq hv
      obtain ⟨k, rfl⟩ : ∃ k, d = k + 1 := ⟨d - 1, by omega⟩
      simp only [Nat.add_sub_cancel] at hq
      have hz : integral (C (1 / 2) * (leg k * q + leg (k + 1) * q)) = 0 := by
        rw [integral_C_mul, integral_add, leg_orthogonal k q hq,
          leg_orthogonal (k + 1) q (lt_trans hq (by exact_mod_cast Nat.lt_succ_self k))]
        ring
      rw [integral] at hz
      rw [← hz]
      congr 1
      funext y
      dsimp only
      rw [← hpx]
      simp only [Vincent.value, Nat.add_sub_cancel, muGalerkin, eval_mul, eval_C, eval_add, leg_eval]
      cases k with
      | zero => rw [right_zero]; simp [legendre]; ring
      | succ k => rw [right_succ]; ring
    · rw [← hpx, hn]
  have e1 : (huynhValue coeff x).1 = (v.value x).1 := by
    have := key (-x)
    simpa [huynhValue, Vincent.value] using this
  exact Prod.ext e1 (key x)

/-- Two lumping conditions: the correction of Vincent that lumps at the Lobatto points. -/
theorem huynh_lobatto {d : Nat} (hd2 : 2 ≤ d) {roots : Roots d} (hr : GaussLegendre roots.x roots.w)
    {coeff : Fin (d + 1) → ℝ} (h : huynh d 2 roots = some coeff) {v : Vincent}
    (hv : vincent d muLobatto = some v) (x : ℝ) : huynhValue coeff x = v.value x := by
  obtain ⟨⟨p, hp, hpx⟩, _, hn, hf, hdf⟩ := vincent_pair_partial hv (Or.inl hd2)
  obtain ⟨_, _, rfl⟩ := vincent_eq hv
  obtain ⟨k, rfl⟩ : ∃ k, d = k + 1 + 1 := ⟨d - 2, by omega⟩
  simp only [Nat.add_sub_cancel] at *
  have key : ∀ y, (huynhValue coeff y).2 = ((Vincent.mk (k + 1) (muLobatto (k + 1))
      (1 - muLobatto (k + 1))).value y).2 := by
    intro y
    rw [hpx]
    refine huynh_unique hr h p hp ?_ ?_ ?_ y
    · intro l hl
      interval_cases l
      · rw [← hf, hpx]; rfl
      · have h1 := (hdf (-1)).2
        have e : (fun x => ((Vincent.mk (k + 1) (muLobatto (k + 1))
            (1 - muLobatto (k + 1))).value x).2) = fun x => p.eval x := funext hpx
        rw [e] at h1
        rw [Function.iterate_one, (p.hasDerivAt (-1)).unique h1]
        simp only [Vincent.gradient, vincent_loop]
        rw [if_neg (by omega), Nat.add_sub_cancel]
        have hne : (2 * ((k : ℝ) + 1) + 1) ≠ 0 := by positivity
        cases k with
        | zero => simp [dleg_neg, dleg_one, dleg_zero, muLobatto]; norm_num
        | succ k =>
          simp only [dleg_neg, dleg_one, muLobatto]
          push_cast at hne ⊢
          field_simp
          ring
    · intro q hq
      have e : k + 1 + 1 - 2 = k := by omega
      rw [e] at hq
      have hq1 : q.degree < (k + 1 : Nat) := lt_trans hq (by exact_mod_cast Nat.lt_succ_self k)
      have hz : integral (C (1 / 2) * (leg (k + 1) * q + C (1 - muLobatto (k + 1)) * (leg k * q) +
          C (muLobatto (k + 1)) * (leg (k + 2) * q))) = 0 := by
        rw [integral_C_mul, integral_add, integral_add, integral_C_mul, integral_C_mul,
          leg_orthogonal k q hq, leg_orthogonal (k + 1) q hq1,
          leg_orthogonal (k + 2) q (lt_trans hq1 (by exact_mod_cast Nat.lt_succ_self _))]
        ring
      rw [integral] at hz
      rw [← hz]
      congr 1
      funext y
      dsimp only
      rw [← hpx]
      simp only [Vincent.value, right_succ, eval_mul, eval_C, eval_add, leg_eval]
      ring
    · rw [← hpx, hn]
  have e1 := key (-x)
  simp only [huynhValue, Vincent.value] at e1
  exact Prod.ext e1 (key x)

/-! ### Lagrange -/

/-- `LagrangeBasis` on distinct points: cardinal values, and gradients that are derivatives. -/
theorem lagrange_basis {n : Nat} {points : Fin n → ℝ} (h : Function.Injective points) (i : Fin n) :
    (∀ j, basisValue points (points j) i = if i = j then 1 else 0) ∧
    ∀ x, HasDerivAt (fun x => basisValue points x i) (basisGradient points x i) x := by
  refine ⟨fun j => ?_, fun x => ?_⟩
  · rw [basisValue, lagrangeValue_eq, Spec.Lagrange.basisPoly]
    split_ifs with e
    · subst e; exact _root_.Lagrange.eval_basis_self h.injOn (Finset.mem_univ _)
    · exact _root_.Lagrange.eval_basis_of_ne e (Finset.mem_univ _)
  · simp only [basisValue, basisGradient, lagrangeValue_eq, lagrangeGradient_eq]
    exact Polynomial.hasDerivAt _ x

/-- Every polynomial of degree below the number of points is the combination of the basis with its
values, and so is its derivative. -/
theorem lagrange_reproduces {n : Nat} {points : Fin n → ℝ} (h : Function.Injective points) (p : ℝ[X])
    (hp : p.degree < n) (x : ℝ) :
    ∑ i, p.eval (points i) * basisValue points x i = p.eval x ∧
    ∑ i, p.eval (points i) * basisGradient points x i = (derivative p).eval x := by
  have hr := Lagrange.reproduce h p hp
  constructor
  · conv_rhs => rw [hr]
    simp [eval_finsetSum, basisValue, lagrangeValue_eq]
  · conv_rhs => rw [hr]
    simp [eval_finsetSum, derivative_sum, basisGradient, lagrangeGradient_eq]

/-! ### Examples -/

/-- The rule with one point. -/
noncomputable def oneRoot : Roots 1 := ⟨fun _ => 0, fun _ => 2⟩

example : GaussLegendre oneRoot.x oneRoot.w := by
  intro p hp
  rw [eq_X_add_C_of_natDegree_le_one (p := p) (by simpa using hp)]
  simp only [oneRoot, Finset.univ_unique, Finset.sum_singleton, eval_add, eval_mul, eval_C, eval_X]
  rw [intervalIntegral.integral_add (Continuous.intervalIntegrable (by fun_prop) _ _)
    (Continuous.intervalIntegrable (by fun_prop) _ _), intervalIntegral.integral_const_mul, integral_id,
    intervalIntegral.integral_const, smul_eq_mul]
  ring

example : ∃ v, vincent 3 muLobatto = some v ∧ IsPair 3 v.value v.gradient :=
  ⟨_, rfl, vincent_pair_partial rfl (Or.inl (by norm_num))⟩

example : (radauValue 2 0).1 = -(1 / 4) := by
  rw [radau_value]; simp [legendre]; norm_num

example : basisValue ![0, 1, 3] 2 1 = (1 : ℝ) := by
  simp [basisValue, lagrangeValue, List.finRange, List.foldl]
  norm_num

end MiniCFD.PyPoly
