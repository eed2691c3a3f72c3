import Verif.Spec.FR
import Verif.Props.Vincent
import Verif.Props.Lagrange

/-! # Summation by parts on a line of solution points, and the correction of Huynh -/

namespace MiniCFD.FR

open MiniCFD.Spec.FR MiniCFD.Vincent MiniCFD.Spec.Lagrange Polynomial

variable {N : Nat} {x w : Fin (N + 1) → ℝ}

theorem LineRule.integral (h : LineRule x w) (p : ℝ[X]) (hp : p.natDegree ≤ 2 * N - 1) :
    ∑ i, w i * p.eval (x i) = Vincent.integral p := h.exact p hp

theorem basisPoly_natDegree (h : LineRule x w) (k : Fin (N + 1)) : (basisPoly x k).natDegree ≤ N := by
  have := _root_.Lagrange.degree_basis (s := Finset.univ) (v := x) h.distinct.injOn (Finset.mem_univ k)
  rw [Finset.card_univ, Fintype.card_fin, Nat.add_sub_cancel] at this
  exact natDegree_le_of_degree_le (le_of_eq this)

theorem basisPoly_eval (h : LineRule x w) (i j : Fin (N + 1)) :
    (basisPoly x i).eval (x j) = if i = j then 1 else 0 := by
  have := Lagrange.line_cardinal h.distinct i j
  rwa [Lagrange.lineValues_eq] at this

/-- Summation by parts against one. -/
theorem sum_derivative (h : LineRule x w) (hN : 0 < N) (k : Fin (N + 1)) :
    ∑ q, w q * Lagrange.lineDerivatives x 1 (x q) k
      = (if k = Fin.last N then 1 else 0) - if k = 0 then 1 else 0 := by
  have h1 : ∀ t, Lagrange.lineDerivatives x 1 t k = (derivative (basisPoly x k)).eval t := fun t => by
    rw [Lagrange.lineDerivatives_eq h.distinct 1 hN]; rfl
  simp only [h1]
  rw [LineRule.integral h _ (le_trans (natDegree_derivative_le _) (by
    have := basisPoly_natDegree h k; omega)), integral_derivative]
  rw [← h.last, basisPoly_eval h, h.last, ← h.first, basisPoly_eval h]

theorem leg_natDegree (n : Nat) : (leg n).natDegree ≤ n := by
  induction n using Nat.strong_induction_on with
  | _ n ih =>
    match n with
    | 0 => simp [leg]
    | 1 => simp [leg]
    | n + 2 =>
      rw [leg]
      refine le_trans (natDegree_C_mul_le _ _) (le_trans (natDegree_sub_le _ _) (max_le ?_ ?_))
      · refine le_trans natDegree_mul_le ?_
        have h1 := ih (n + 1) (by omega)
        have h2 : (C (2 * (n : ℝ) + 3) * X : ℝ[X]).natDegree ≤ 1 :=
          le_trans (natDegree_C_mul_le _ _) natDegree_X_le
        omega
      · exact le_trans (natDegree_C_mul_le _ _) (le_trans (ih n (by omega)) (by omega))

theorem rightPoly_natDegree (k : Nat) (c : ℝ) : (rightPoly k c).natDegree ≤ k + 1 := by
  rw [rightPoly]
  refine le_trans (natDegree_C_mul_le _ _) (le_trans (natDegree_add_le _ _) (max_le
    (le_trans (natDegree_add_le _ _) (max_le ?_ ?_)) ?_))
  · exact le_trans (leg_natDegree _) (by omega)
  · exact le_trans (natDegree_C_mul_le _ _) (le_trans (leg_natDegree _) (by omega))
  · exact le_trans (natDegree_C_mul_le _ _) (leg_natDegree _)

theorem rightPoly_derivative (k : Nat) (hk : 0 < k) (c t : ℝ) :
    (derivative (rightPoly k c)).eval t = rightDerivative (mk' k c) t := by
  have h1 := (rightPoly k c).hasDerivAt t
  have e : (fun x => (rightPoly k c).eval x) = rightValue (mk' k c) := funext fun x => rightPoly_eval _ _ x
  rw [e] at h1
  exact h1.unique (right_derivative k hk _ t)

/-- The left function as a polynomial. -/
noncomputable def leftPoly (k : Nat) (c : ℝ) : ℝ[X] := (rightPoly k c).comp (-X)

theorem leftPoly_natDegree (k : Nat) (c : ℝ) : (leftPoly k c).natDegree ≤ k + 1 := by
  rw [leftPoly, natDegree_comp, natDegree_neg, natDegree_X, mul_one]
  exact rightPoly_natDegree k c

theorem leftPoly_eval (k : Nat) (c t : ℝ) : (leftPoly k c).eval t = leftValue (mk' k c) t := by
  rw [leftPoly, eval_comp, eval_neg, eval_X, rightPoly_eval, leftValue]

theorem leftPoly_derivative (k : Nat) (hk : 0 < k) (c t : ℝ) :
    (derivative (leftPoly k c)).eval t = leftDerivative (mk' k c) t := by
  rw [leftPoly, derivative_comp, eval_mul, eval_comp, eval_neg, eval_X, rightPoly_derivative k hk,
    leftDerivative]
  simp

/-- The derivative of the right correction function adds up to one. -/
theorem sum_right (h : LineRule x w) (hN : 0 < N) (c : ℝ) :
    ∑ l, w l * rightDerivative (mk' N c) (x l) = 1 := by
  simp only [← rightPoly_derivative N hN]
  rw [LineRule.integral h _ (le_trans (natDegree_derivative_le _) (by
    have := rightPoly_natDegree N c; omega)), integral_derivative, rightPoly_eval, rightPoly_eval,
    (right_ends N hN c).1, (right_ends N hN c).2, sub_zero]

/-- That of the left one to minus one. -/
theorem sum_left (h : LineRule x w) (hN : 0 < N) (c : ℝ) :
    ∑ l, w l * leftDerivative (mk' N c) (x l) = -1 := by
  simp only [← leftPoly_derivative N hN]
  rw [LineRule.integral h _ (le_trans (natDegree_derivative_le _) (by
    have := leftPoly_natDegree N c; omega)), integral_derivative, leftPoly_eval, leftPoly_eval,
    (left_ends N hN c).1, (left_ends N hN c).2, zero_sub]

/-! ### Lumping -/

/-- If `G` is orthogonal to low degrees, the rule sees `G'` as a difference of end values. -/
theorem sum_lump (h : LineRule x w) (hN : 0 < N) {G : ℝ[X]} (hG : G.natDegree ≤ N + 1)
    (ho : ∀ q : ℝ[X], q.degree < (N - 1 : Nat) → Vincent.integral (G * q) = 0) (q : ℝ[X])
    (hq : q.natDegree ≤ N - 1) :
    ∑ i, w i * ((derivative G).eval (x i) * q.eval (x i)) = G.eval 1 * q.eval 1 - G.eval (-1) * q.eval (-1) := by
  have h1 : ∑ i, w i * ((derivative G).eval (x i) * q.eval (x i)) = Vincent.integral (derivative G * q) := by
    rw [← LineRule.integral h _ (le_trans natDegree_mul_le (by
      have := natDegree_derivative_le G; omega))]
    simp only [eval_mul]
  have h2 := integral_derivative (G * q)
  rw [derivative_mul, integral_add, eval_mul, eval_mul] at h2
  have h3 : Vincent.integral (G * derivative q) = 0 := by
    refine ho _ ?_
    by_cases h0 : derivative q = 0
    · rw [h0, degree_zero]; exact WithBot.bot_lt_coe _
    · rw [degree_eq_natDegree h0]
      have h4 : q.natDegree ≠ 0 := fun h5 => h0 (by
        rw [eq_C_of_natDegree_eq_zero h5, derivative_C])
      have := natDegree_derivative_lt h4
      exact_mod_cast (by omega : (derivative q).natDegree < N - 1)
  rw [h1]
  linarith

/-- With a zero of `G'` at one node, the rule times `G'` is concentrated at the ends. -/
theorem lump (h : LineRule x w) (hN : 0 < N) {G : ℝ[X]} (hG : G.natDegree ≤ N + 1)
    (ho : ∀ q : ℝ[X], q.degree < (N - 1 : Nat) → Vincent.integral (G * q) = 0) {e : Fin (N + 1)}
    (he : (derivative G).eval (x e) = 0) (i : Fin (N + 1)) (hi : i ≠ e) :
    ∃ q : ℝ[X], (∀ j, j ≠ e → q.eval (x j) = if i = j then 1 else 0) ∧
      w i * (derivative G).eval (x i) = G.eval 1 * q.eval 1 - G.eval (-1) * q.eval (-1) := by
  set s := Finset.univ.erase e with hs
  have his : i ∈ s := Finset.mem_erase.2 ⟨hi, Finset.mem_univ _⟩
  have hinj : Set.InjOn x s := h.distinct.injOn
  refine ⟨_root_.Lagrange.basis s x i, fun j hj => ?_, ?_⟩
  · by_cases hij : i = j
    · subst hij
      rw [if_pos rfl, _root_.Lagrange.eval_basis_self hinj his]
    · rw [if_neg hij, _root_.Lagrange.eval_basis_of_ne hij (Finset.mem_erase.2 ⟨hj, Finset.mem_univ _⟩)]
  · rw [← sum_lump h hN hG ho]
    · rw [Finset.sum_eq_single i]
      · rw [_root_.Lagrange.eval_basis_self hinj his, mul_one]
      · intro j _ hj
        by_cases hje : j = e
        · rw [hje, he]; ring
        · rw [_root_.Lagrange.eval_basis_of_ne (Ne.symm hj) (Finset.mem_erase.2 ⟨hje, Finset.mem_univ _⟩)]
          ring
      · simp
    · refine natDegree_le_of_degree_le (le_of_eq ?_)
      rw [_root_.Lagrange.degree_basis hinj his, hs, Finset.card_erase_of_mem (Finset.mem_univ _),
        Finset.card_univ, Fintype.card_fin, Nat.add_sub_cancel]

theorem right_low (c : ℝ) (q : ℝ[X]) (hq : q.degree < (N - 1 : Nat)) :
    Vincent.integral (rightPoly N c * q) = 0 := by
  have := right_orthogonal N c q hq
  simp only [← rightPoly_eval, ← eval_mul] at this
  exact this

theorem integral_comp_neg (p : ℝ[X]) : Vincent.integral (p.comp (-X)) = Vincent.integral p := by
  unfold Vincent.integral
  simp only [eval_comp, eval_neg, eval_X]
  rw [intervalIntegral.integral_comp_neg (fun t => p.eval t), neg_neg]

theorem left_low (c : ℝ) (q : ℝ[X]) (hq : q.degree < (N - 1 : Nat)) :
    Vincent.integral (leftPoly N c * q) = 0 := by
  have e : leftPoly N c * q = (rightPoly N c * q.comp (-X)).comp (-X) := by
    rw [leftPoly, mul_comp]
    congr 1
    rw [comp_assoc]; simp
  rw [e, integral_comp_neg]
  refine right_low c _ ?_
  by_cases h0 : q.comp (-X) = 0
  · rw [h0, degree_zero]; exact WithBot.bot_lt_coe _
  · have hqz : q ≠ 0 := by rintro rfl; simp at h0
    rw [degree_eq_natDegree h0, natDegree_comp, natDegree_neg, natDegree_X, mul_one,
      ← degree_eq_natDegree hqz]
    exact hq

/-- The correction of Huynh on Lobatto points only acts at the end. -/
theorem huynh_right (h : LineRule x w) (hN : 0 < N) (i : Fin (N + 1)) :
    rightDerivative (mk' N (huynhLumpingLobatto N)) (x i) = if i = Fin.last N then 1 / w i else 0 := by
  have h0 : (0 : Fin (N + 1)) ≠ Fin.last N := by
    intro h; have := congrArg Fin.val h; simp at this; omega
  by_cases hi : i = 0
  · subst hi
    rw [if_neg h0, h.first, (huynh_far_end N hN).1]
  · obtain ⟨q, hq, e⟩ := lump h hN (rightPoly_natDegree N (huynhLumpingLobatto N)) (right_low _)
      (e := 0) (by rw [rightPoly_derivative N hN, h.first, (huynh_far_end N hN).1]) i hi
    rw [rightPoly_derivative N hN, rightPoly_eval, rightPoly_eval, (right_ends N hN _).1,
      (right_ends N hN _).2, ← h.last, hq _ (Ne.symm h0), h.last] at e
    have hw := (h.positive i).ne'
    split_ifs at e ⊢ with hl
    · field_simp
      linarith
    · have : w i * rightDerivative (mk' N (huynhLumpingLobatto N)) (x i) = 0 := by linarith
      exact (mul_eq_zero.1 this).resolve_left hw

theorem huynh_left (h : LineRule x w) (hN : 0 < N) (i : Fin (N + 1)) :
    leftDerivative (mk' N (huynhLumpingLobatto N)) (x i) = if i = 0 then -(1 / w i) else 0 := by
  have h0 : (0 : Fin (N + 1)) ≠ Fin.last N := by
    intro h; have := congrArg Fin.val h; simp at this; omega
  by_cases hi : i = Fin.last N
  · subst hi
    rw [if_neg (Ne.symm h0), h.last, (huynh_far_end N hN).2]
  · obtain ⟨q, hq, e⟩ := lump h hN (leftPoly_natDegree N (huynhLumpingLobatto N)) (left_low _)
      (e := Fin.last N) (by rw [leftPoly_derivative N hN, h.last, (huynh_far_end N hN).2]) i hi
    rw [leftPoly_derivative N hN, leftPoly_eval, leftPoly_eval, (left_ends N hN _).1,
      (left_ends N hN _).2, ← h.first, hq _ h0] at e
    have hw := (h.positive i).ne'
    split_ifs at e ⊢ with hl
    · field_simp
      linarith
    · have : w i * leftDerivative (mk' N (huynhLumpingLobatto N)) (x i) = 0 := by linarith
      exact (mul_eq_zero.1 this).resolve_left hw

end MiniCFD.FR
