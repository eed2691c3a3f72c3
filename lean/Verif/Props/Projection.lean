import Verif.Lemmas.Projection
import Mathlib.Algebra.BigOperators.Fin
import Mathlib.Algebra.BigOperators.Field
import Mathlib.Tactic.FieldSimp

/-!
# C44: projections reproduce the space and the mean
-/

namespace MiniCFD.Projection

open MiniCFD.Ortho

variable {Pt : Type*} {n K : Nat} {b : Basis Pt n}

/-- **C44.** Projecting a function of the space gives its coefficients back. -/
theorem reproduces (s : Sound b) (coeff : Coeff K n) (f : Pt → Value K)
    (h : ∀ pw ∈ b.rule, f pw.1 = value b coeff pw.1) : project b f = coeff := by
  rw [project_congr h, project_value s]

/-- **C44.** Projecting twice is projecting once. -/
theorem idempotent (s : Sound b) (f : Pt → Value K) :
    project b (value b (project b f)) = project b f := project_value s _

/-- **C44.** The squared quadrature error splits into that of the projection and the distance of the
coefficients. -/
theorem pythagoras (s : Sound b) (f : Pt → Value K) (coeff : Coeff K n) (r : Fin K) :
    integrate (fun p => (f p r - value b coeff p r) ^ 2) b.rule
      = integrate (fun p => (f p r - value b (project b f) p r) ^ 2) b.rule
        + ∑ i, (project b f r i - coeff r i) ^ 2 := by
  set P := project b f with hP
  have hd : ∀ p, value b P p r - value b coeff p r = ∑ i, (P r i - coeff r i) * basisValues b p i := by
    intro p
    simp only [value, sub_mul, Finset.sum_sub_distrib]
  have h1 : integrate (fun p => (f p r - value b coeff p r) ^ 2) b.rule
      = integrate (fun p => (f p r - value b P p r) ^ 2) b.rule
        + (2 * integrate (fun p => (f p r - value b P p r) * (value b P p r - value b coeff p r)) b.rule
        + integrate (fun p => (value b P p r - value b coeff p r) ^ 2) b.rule) := by
    rw [← integrate_smul, ← integrate_add, ← integrate_add]
    congr 1
    funext p
    ring
  have hval : ∀ i, integrate (fun p => value b P p r * basisValues b p i) b.rule = P r i := by
    intro i
    exact congrFun (congrFun (project_value s P) r) i
  have horth : ∀ i, integrate (fun p => (f p r - value b P p r) * basisValues b p i) b.rule = 0 := by
    intro i
    have h : (fun p => (f p r - value b P p r) * basisValues b p i)
        = fun p => f p r * basisValues b p i + (-1) * (value b P p r * basisValues b p i) := by
      funext p; ring
    rw [h, integrate_add, integrate_smul, hval]
    have : integrate (fun p => f p r * basisValues b p i) b.rule = P r i := rfl
    rw [this]
    ring
  have h2 : integrate (fun p => (f p r - value b P p r) * (value b P p r - value b coeff p r)) b.rule = 0 := by
    have h : (fun p => (f p r - value b P p r) * (value b P p r - value b coeff p r))
        = fun p => ∑ i, (P r i - coeff r i) * ((f p r - value b P p r) * basisValues b p i) := by
      funext p
      rw [hd, Finset.mul_sum]
      exact Finset.sum_congr rfl fun i _ => by ring
    rw [h, integrate_sum]
    simp only [integrate_smul, horth, mul_zero, Finset.sum_const_zero]
  have h3 : integrate (fun p => (value b P p r - value b coeff p r) ^ 2) b.rule
      = ∑ i, (P r i - coeff r i) ^ 2 := by
    have h : (fun p => (value b P p r - value b coeff p r) ^ 2)
        = fun p => ∑ i, ∑ j, (P r i - coeff r i) * (P r j - coeff r j)
          * (basisValues b p i * basisValues b p j) := by
      funext p
      rw [hd, sq, Finset.sum_mul_sum]
      exact Finset.sum_congr rfl fun i _ => Finset.sum_congr rfl fun j _ => by ring
    rw [h, integrate_sum]
    simp only [integrate_sum, integrate_smul, s.orth, mul_ite, mul_one, mul_zero, Finset.sum_ite_eq,
      Finset.mem_univ, if_true]
    exact Finset.sum_congr rfl fun i _ => (sq _).symm
  rw [h1, h2, h3]
  ring

/-- **C44.** No other element of the space is nearer to the function, and only the projection attains the
minimum. -/
theorem best (s : Sound b) (f : Pt → Value K) (coeff : Coeff K n) (r : Fin K) :
    integrate (fun p => (f p r - value b (project b f) p r) ^ 2) b.rule
      ≤ integrate (fun p => (f p r - value b coeff p r) ^ 2) b.rule ∧
    (integrate (fun p => (f p r - value b coeff p r) ^ 2) b.rule
      = integrate (fun p => (f p r - value b (project b f) p r) ^ 2) b.rule → coeff r = project b f r) := by
  have h := pythagoras s f coeff r
  have h0 : 0 ≤ ∑ i, (project b f r i - coeff r i) ^ 2 := Finset.sum_nonneg fun i _ => sq_nonneg _
  refine ⟨by linarith, fun he => ?_⟩
  have h1 : ∑ i, (project b f r i - coeff r i) ^ 2 = 0 := by linarith
  funext i
  have := (Finset.sum_eq_zero_iff_of_nonneg fun i _ => sq_nonneg _).1 h1 i (Finset.mem_univ i)
  have := pow_eq_zero_iff (n := 2) (by norm_num) |>.1 this
  linarith

/-- **C44.** `average()` of a projection is the quadrature mean of the function, and that of any
coefficients is the quadrature mean of the polynomial. -/
theorem mean (s : Sound b) (f : Pt → Value K) (coeff : Coeff K n) (r : Fin K) :
    average b (project b f) r = integrate (fun p => f p r) b.rule / integrate (fun _ => 1) b.rule ∧
    average b coeff r = integrate (fun p => value b coeff p r) b.rule / integrate (fun _ => 1) b.rule := by
  have h := integrate_pos_one s
  refine ⟨?_, ?_⟩
  · rw [eq_div_iff h, average_project s]
  · rw [eq_div_iff h, ← average_project s, project_value s]

/-- **C44.** Arithmetic on coefficients is arithmetic on values, at every point. -/
theorem arithmetic (s : Sound b) (c d : Coeff K n) (p : Pt) (A : Matrix (Fin K) (Fin K) ℝ) (q : ℝ)
    (w : Value K) (r : Fin K) :
    value b (leftMultiply A c) p r = ∑ k, A r k * value b c p k ∧
    value b (scale q c) p r = q * value b c p r ∧
    (∀ c', divide q c = some c' → value b c' p r = value b c p r / q) ∧
    value b (scaleRows w c) p r = w r * value b c p r ∧
    value b (shift b w c) p r = value b c p r + w r ∧
    value b (plus c d) p r = value b c p r + value b d p r := by
  refine ⟨?_, ?_, ?_, ?_, ?_, ?_⟩
  · simp only [value, leftMultiply, Finset.sum_mul, Finset.mul_sum]
    rw [Finset.sum_comm]
    exact Finset.sum_congr rfl fun _ _ => Finset.sum_congr rfl fun _ _ => by ring
  · simp only [value, scale, Finset.mul_sum]
    exact Finset.sum_congr rfl fun _ _ => by ring
  · intro c' h
    unfold divide at h
    split at h
    · exact absurd h (by simp)
    · obtain rfl := Option.some.inj h
      simp only [value, Finset.sum_div]
      exact Finset.sum_congr rfl fun _ _ => by ring
  · simp only [value, scaleRows, Finset.mul_sum]
    exact Finset.sum_congr rfl fun _ _ => by ring
  · simp only [value]
    rw [Fin.sum_univ_succ, Fin.sum_univ_succ]
    simp only [shift, if_true, Fin.succ_ne_zero, if_false, s.const]
    have := s.ne
    field_simp
    ring
  · simp only [value, plus, add_mul, Finset.sum_add_distrib]

/-- **C44.** The same for averages; the shift moves the average by its amount. -/
theorem arithmetic_average (s : Sound b) (c d : Coeff K n) (A : Matrix (Fin K) (Fin K) ℝ) (q : ℝ)
    (w : Value K) (r : Fin K) :
    average b (leftMultiply A c) r = ∑ k, A r k * average b c k ∧
    average b (scale q c) r = q * average b c r ∧
    average b (scaleRows w c) r = w r * average b c r ∧
    average b (shift b w c) r = average b c r + w r ∧
    average b (plus c d) r = average b c r + average b d r := by
  refine ⟨?_, ?_, ?_, ?_, ?_⟩
  · simp only [average, leftMultiply, Finset.sum_mul]
    exact Finset.sum_congr rfl fun _ _ => by ring
  · simp only [average, scale]; ring
  · simp only [average, scaleRows]; ring
  · simp only [average, shift, if_true]
    have := s.ne
    field_simp
  · simp only [average, plus]; ring

/-- **C44.** The coefficients on the Taylor basis give the same polynomial. -/
theorem on_taylor (c : Coeff K n) (p : Pt) (r : Fin K) :
    value b c p r = ∑ j : Fin (n + 1), coeffOnTaylor b c r j * b.taylor p j := by
  simp only [value, coeffOnTaylor, basisValues, fullEval, Finset.sum_mul, Finset.mul_sum]
  rw [Finset.sum_comm]
  rw [Finset.sum_range]
  refine Finset.sum_congr rfl fun j _ => Finset.sum_congr rfl fun i _ => by ring

/-- **C44.** What `WriteCoeffTo` wrote, `GetCoeffFrom` reads, leaving the rest of the input. -/
theorem read_write (c : Coeff K n) (rest : List ℝ) : read K n (write c ++ rest) = some (c, rest) := by
  have hl := write_length c
  have h : (n + 1) * K ≤ (write c ++ rest).length := by rw [List.length_append, hl]; omega
  rw [read, if_pos h, Option.some_inj, Prod.mk.injEq]
  refine ⟨?_, by rw [← hl, List.drop_left]⟩
  funext r i
  have hK : 0 < K := Nat.lt_of_le_of_lt (Nat.zero_le _) r.2
  have hlt : (i : Nat) * K + r < (n + 1) * K := by
    have h1 : (i : Nat) * K + K ≤ (n + 1) * K := by
      have := Nat.mul_le_mul_right K (Nat.succ_le_of_lt i.2)
      rwa [Nat.succ_mul] at this
    have := r.2
    omega
  rw [List.getD_eq_getElem?_getD, List.getElem?_append_left (by rw [hl]; exact hlt), write,
    List.getElem?_ofFn, dif_pos hlt, Option.getD_some]
  congr 1
  · apply Fin.ext
    simp [Fin.modNat, Nat.mod_eq_of_lt r.2]
  · apply Fin.ext
    simp [Fin.divNat, Nat.add_div_of_dvd_right, Nat.mul_div_cancel _ hK, Nat.div_eq_of_lt r.2]

/-- **C44.** `AddCoeffTo` and `MinusCoeff` add and subtract in the layout of `WriteCoeffTo`, and leave the
rest of the output alone. -/
theorem add_layout (c d : Coeff K n) (rest : List ℝ) :
    addTo d (write c ++ rest) = some (write (plus c d) ++ rest) ∧
    minusTo d (write c ++ rest) = some (write (fun r i => c r i - d r i) ++ rest) := by
  have hz : ∀ (op : ℝ → ℝ → ℝ), List.zipWith op (write c) (write d)
      = write fun r i => op (c r i) (d r i) := by
    intro op
    refine List.ext_getElem? fun i => ?_
    simp only [List.getElem?_zipWith, write, List.getElem?_ofFn]
    by_cases h : i < (n + 1) * K <;> simp [h]
  unfold addTo minusTo
  rw [← write_eq]
  refine ⟨?_, ?_⟩
  · rw [update_eq _ _ _ _ (by rw [write_length, write_length]), hz]; rfl
  · rw [update_eq _ _ _ _ (by rw [write_length, write_length]), hz]

/-! ### The hypotheses are met -/

/-- The functions `1, x` on two points. -/
noncomputable def sample : Basis ℝ 1 := ortho 1 sampleTaylor sampleRule

theorem sample_sound : Sound sample :=
  ortho_sound sampleTaylor (fun p => by simp [sampleTaylor]) sampleRule sample_positive sample_independent

example (c : Coeff 5 1) : project sample (value sample c) = c :=
  reproduces sample_sound c _ fun _ _ => rfl

example : average sample (project sample (fun x : ℝ => (fun _ => x : Value 1))) 0 = 3 / 2 := by
  rw [(mean sample_sound _ (fun _ _ => 0) 0).1]
  simp only [sample, ortho, sampleRule, integrate_eq, List.map_cons, List.map_nil, List.sum_cons,
    List.sum_nil]
  norm_num

end MiniCFD.Projection
