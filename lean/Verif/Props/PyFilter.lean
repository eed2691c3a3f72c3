import Verif.Lemmas.PyFilterSpectrum
import Mathlib.Algebra.Polynomial.Eval.Degree
import Mathlib.Analysis.SpecialFunctions.Trigonometric.Inverse
import Mathlib.Analysis.SpecialFunctions.Trigonometric.Bounds

/-!
# C106: the selective filter
-/

namespace MiniCFD.PyFilter

open MiniCFD.Spec.PyFilter Polynomial

private theorem list_ext {n : ℕ} {l : List ℝ} {w : ℤ → ℝ} (hl : l.length = n) (h : ∀ k : ℕ, k < n → l[k]? = some (w k)) :
    l = sample n w := by
  refine List.ext_getElem? fun k => ?_
  rcases lt_or_ge k n with hk | hk
  · rw [h k hk, sample_get w hk]
  · rw [sample_none w hk]; exact List.getElem?_eq_none (hl ▸ hk)

/-- C106: Without periodicity the filter takes `sigma` times the dissipation away from all points but the five at
each end, for arrays of any length. -/
theorem open_ends (n : ℕ) (u : ℤ → ℝ) (sigma : ℝ) :
    filter false (sample n u) sigma =
      some (sample n fun i => if 5 ≤ i ∧ i + 5 < n then u i - sigma * dissipation u i else u i) := by
  obtain ⟨new, h1, h2, h3⟩ := sweep_spec (dotSlice (sample n u)) (fun i => dissipation u i) sigma (List.range' 5 (n - 10))
    (sample n u) List.nodup_range' (fun i hi => by
      have := List.mem_range'_1.1 hi
      exact ⟨by rw [sample_length]; omega, dotSlice_eq u (by omega) (by omega)⟩)
  unfold filter
  rw [sample_length, h1]
  simp only [Option.bind_some, Bool.false_eq_true, if_false]
  congr 1
  refine list_ext (by rw [h2, sample_length]) fun k hk => ?_
  rw [h3, sample_get u hk]
  simp only [List.mem_range'_1, Option.map_some]
  by_cases hm : 5 ≤ k ∧ k < 5 + (n - 10)
  · rw [if_pos hm, if_pos (by omega)]
  · rw [if_neg hm, if_neg (by omega)]

/-- C106: With periodicity and at least ten points the filter treats all points alike: the array is one period of
a grid function. -/
theorem periodic {n : ℕ} {u : ℤ → ℝ} (hu : ∀ i, u (i + n) = u i) (hn : 10 ≤ n) (sigma : ℝ) :
    filter true (sample n u) sigma = some (sample n fun i => u i - sigma * dissipation u i) := by
  obtain ⟨new, h1, h2, h3⟩ := sweep_spec (dotSlice (sample n u)) (fun i => dissipation u i) sigma (List.range' 5 (n - 10))
    (sample n u) List.nodup_range' (fun i hi => by
      have := List.mem_range'_1.1 hi
      exact ⟨by rw [sample_length]; omega, dotSlice_eq u (by omega) (by omega)⟩)
  obtain ⟨new', h1', h2', h3'⟩ := sweep_spec (dotLeft (sample n u)) (fun i => dissipation u i) sigma (List.range 5)
    new List.nodup_range (fun i hi => by
      have := List.mem_range.1 hi
      exact ⟨by rw [h2, sample_length]; omega, dotLeft_eq hu hn (by omega)⟩)
  obtain ⟨new'', h1'', h2'', h3''⟩ := sweep_spec (dotRight (sample n u)) (fun i => dissipation u i) sigma
    (List.range' (n - 5) 5) new' List.nodup_range' (fun i hi => by
      have := List.mem_range'_1.1 hi
      exact ⟨by rw [h2', h2, sample_length]; omega, dotRight_eq hu hn (by omega) (by omega)⟩)
  unfold filter
  rw [sample_length, h1]
  simp only [Option.bind_some, if_true]
  rw [h1', Option.bind_some, h1'']
  congr 1
  refine list_ext (by rw [h2'', h2', h2, sample_length]) fun k hk => ?_
  rw [h3'', h3', h3, sample_get u hk]
  simp only [List.mem_range'_1, List.mem_range, Option.map_some]
  by_cases ha : 5 ≤ k ∧ k < 5 + (n - 10)
  · rw [if_neg (by omega), if_neg (by omega), if_pos ha]
  · by_cases hb : k < 5
    · rw [if_neg (by omega), if_pos hb, if_neg ha]; rfl
    · rw [if_pos (by omega), if_neg hb, if_neg ha]; rfl

/-- Every array is one period of a grid function. -/
private theorem extend (old : List ℝ) : ∃ u : ℤ → ℝ, (∀ i, u (i + old.length) = u i) ∧ old = sample old.length u := by
  refine ⟨fun i => old.getD (i % old.length).toNat 0, fun i => by simp, ?_⟩
  refine list_ext rfl fun k hk => ?_
  have : ((k : ℤ) % old.length).toNat = k := by rw [Int.emod_eq_of_lt (by omega) (by omega)]; rfl
  rw [this, List.getD_eq_getElem?_getD, List.getElem?_eq_getElem hk]
  rfl

/-- C106: With periodicity arrays of less than ten points are refused. -/
theorem periodic_short {old : List ℝ} (h : old.length < 10) (sigma : ℝ) : filter true old sigma = none := by
  obtain ⟨u, -, e⟩ := extend old
  set n := old.length
  have key : ∃ i < 5, dotLeft (sample n u) i = none := by
    rcases lt_or_ge n 5 with h5 | h5
    · refine ⟨n, h5, ?_⟩
      unfold dotLeft
      rw [get_beyond u (by omega)]; rfl
    · refine ⟨4, by norm_num, ?_⟩
      unfold dotLeft
      rw [get_inside u (by omega) (by omega), Option.bind_some, show List.range' 1 5 = [1, 2, 3, 4] ++ [5] by decide,
        List.foldlM_append]
      have : ∀ d : ℝ, List.foldlM (fun (d : ℝ) (j : ℕ) => (get (sample n u) (((4 : ℕ) : ℤ) + j)).bind fun r =>
          (get (sample n u) (((4 : ℕ) : ℤ) - j)).map fun l => d + r * coeff (5 + j) + l * coeff (5 - j)) d [5] = none := by
        intro d
        rw [List.foldlM_cons, get_beyond u (by push_cast; omega)]; rfl
      cases List.foldlM (fun (d : ℝ) (j : ℕ) => (get (sample n u) (((4 : ℕ) : ℤ) + j)).bind fun r =>
          (get (sample n u) (((4 : ℕ) : ℤ) - j)).map fun l => d + r * coeff (5 + j) + l * coeff (5 - j))
          (u ((4 : ℕ) : ℤ) * coeff 5) [1, 2, 3, 4] with
      | none => rfl
      | some d => exact this d
  obtain ⟨i, hi, hd⟩ := key
  unfold filter
  rw [e]
  cases sweep (dotSlice (sample n u)) sigma (List.range' 5 ((sample n u).length - 10)) (sample n u) with
  | none => rfl
  | some new =>
    simp only [Option.bind_some, if_true]
    rw [sweep_fails _ sigma _ (List.mem_range.2 hi) hd]
    rfl

/-- What a successful periodic filter has done. -/
private theorem inverted {old new : List ℝ} {sigma : ℝ} (h : filter true old sigma = some new) :
    ∃ (k : ℕ) (v : EuclideanSpace ℝ (ZMod (k + 1))), old = sample (k + 1) (fun i => v (i : ZMod (k + 1))) ∧
      new = sample (k + 1) (fun i => step sigma v (i : ZMod (k + 1))) := by
  have hn : 10 ≤ old.length := by
    by_contra hc
    rw [periodic_short (by omega)] at h
    simp at h
  obtain ⟨k, hk⟩ : ∃ k, old.length = k + 1 := ⟨old.length - 1, by omega⟩
  obtain ⟨u, hu, e⟩ := extend old
  rw [hk] at hu e hn
  have hz : ∀ i j : ℤ, (i : ZMod (k + 1)) = j → u i = u j := by
    intro i j hij
    have hm : ∀ (m : ℤ) (i : ℤ), u (i + m * ((k + 1 : ℕ) : ℤ)) = u i := by
      intro m
      induction m using Int.induction_on with
      | zero => intro i; simp
      | succ m ih => intro i; rw [add_mul, one_mul, ← add_assoc, hu, ih]
      | pred m ih => intro i; rw [← hu, sub_mul, one_mul, add_assoc, sub_add_cancel, ih]
    obtain ⟨m, hm'⟩ := (ZMod.intCast_eq_intCast_iff_dvd_sub i j (k + 1)).1 hij
    rw [← hm m i]
    congr 1
    linear_combination -hm'
  set v : EuclideanSpace ℝ (ZMod (k + 1)) := WithLp.toLp 2 fun x => u ((ZMod.cast x : ℤ)) with hv
  have hvi : ∀ i : ℤ, v (i : ZMod (k + 1)) = u i := fun i => hz _ _ (by simp)
  have hvu : (fun i : ℤ => v (i : ZMod (k + 1))) = u := funext hvi
  refine ⟨k, v, by rw [hvu]; exact e, ?_⟩
  have := periodic hu hn sigma
  rw [← e, h] at this
  rw [Option.some.inj this]
  congr 1
  funext i
  rw [step_apply, hvu, hvi]

private theorem sum_sample (k : ℕ) (f : ZMod (k + 1) → ℝ) : (sample (k + 1) fun i => f (i : ZMod (k + 1))).sum = ∑ x, f x := by
  unfold sample
  rw [List.sum_ofFn]
  refine Finset.sum_congr rfl fun x _ => ?_
  have : (((x : ℕ) : ℤ) : ZMod (k + 1)) = x := by rw [Int.cast_natCast]; exact Fin.cast_val_eq_self x
  exact congrArg f this

/-- C106: With periodicity the sum is kept: the coefficients sum to zero exactly. -/
theorem sum_kept {old new : List ℝ} {sigma : ℝ} (h : filter true old sigma = some new) : new.sum = old.sum := by
  obtain ⟨k, v, rfl, rfl⟩ := inverted h
  rw [sum_sample k (fun x => step sigma v x), sum_sample k (fun x => v x)]
  have hs := fun a : ZMod (k + 1) => sum_shift (fun x => v x) a
  have e : ∀ x, step sigma v x = v x - sigma * (weights 0 * v x + weights 1 * (v (x + 1) + v (x + -1))
    + weights 2 * (v (x + 2) + v (x + -2)) + weights 3 * (v (x + 3) + v (x + -3)) + weights 4 * (v (x + 4) + v (x + -4))
    + weights 5 * (v (x + 5) + v (x + -5))) := by
    intro x; simp only [← sub_eq_add_neg]; rfl
  simp only [e, Finset.sum_sub_distrib, ← Finset.mul_sum, Finset.sum_add_distrib, hs]
  unfold weights
  ring

/-- C106: With periodicity and `sigma` between zero and two the sum of squares grows by no more than the rounding
of the coefficients lets it. -/
theorem stable {old new : List ℝ} {sigma : ℝ} (h0 : 0 ≤ sigma) (h2 : sigma ≤ 2) (h : filter true old sigma = some new) :
    (new.map (· ^ 2)).sum ≤ (1 + 1 / 10 ^ 22) * (old.map (· ^ 2)).sum := by
  obtain ⟨k, v, rfl, rfl⟩ := inverted h
  have hm : ∀ w : EuclideanSpace ℝ (ZMod (k + 1)),
      ((sample (k + 1) fun i => w (i : ZMod (k + 1))).map (· ^ 2)).sum = ‖w‖ ^ 2 := by
    intro w
    have : (sample (k + 1) fun i => w (i : ZMod (k + 1))).map (· ^ 2) = sample (k + 1) fun i => (w (i : ZMod (k + 1))) ^ 2 := by
      unfold sample; rw [List.map_ofFn]; rfl
    rw [this, sum_sample k (fun x => (w x) ^ 2), ← real_inner_self_eq_norm_sq, inner_eq]
    exact Finset.sum_congr rfl fun x _ => sq (w x)
  rw [hm, hm]
  have := step_norm h0 h2 v
  calc ‖step sigma v‖ ^ 2 ≤ ((1 + 2 / 10 ^ 23) * ‖v‖) ^ 2 := pow_le_pow_left₀ (norm_nonneg _) this 2
    _ = (1 + 2 / 10 ^ 23) ^ 2 * ‖v‖ ^ 2 := by ring
    _ ≤ (1 + 1 / 10 ^ 22) * ‖v‖ ^ 2 := mul_le_mul_of_nonneg_right (by norm_num) (sq_nonneg _)

/-- C106: Polynomials up to the third degree are not changed. -/
theorem cubic (p : ℝ[X]) (hp : p.natDegree ≤ 3) (x h : ℝ) (n : ℕ) (sigma : ℝ) :
    filter false (sample n fun i => p.eval (x + i * h)) sigma = some (sample n fun i => p.eval (x + i * h)) := by
  rw [open_ends]
  have hd : ∀ i, dissipation (fun i => p.eval (x + i * h)) i = 0 := by
    intro i
    unfold dissipation weights
    simp only [Polynomial.eval_eq_sum_range' (Nat.lt_succ_of_le hp), Finset.sum_range_succ, Finset.sum_range_zero]
    push_cast
    ring
  simp only [hd, mul_zero, sub_zero, ite_self]

private theorem damping_eq (theta : ℝ) : damping theta = symbol ((1 - Real.cos theta) / 2) := by
  unfold damping symbol
  rw [show List.range' 1 5 = [1, 2, 3, 4, 5] by decide]
  simp only [List.foldl_cons, List.foldl_nil, coeff, weights, Nat.reduceAdd]
  have c2 : Real.cos (2 * theta) = 2 * Real.cos theta ^ 2 - 1 := Real.cos_two_mul theta
  have c3 : Real.cos (3 * theta) = 4 * Real.cos theta ^ 3 - 3 * Real.cos theta := Real.cos_three_mul theta
  have c4 : Real.cos (4 * theta) = 2 * Real.cos (2 * theta) ^ 2 - 1 := by rw [← Real.cos_two_mul]; ring_nf
  have c5 : Real.cos (5 * theta) = 2 * Real.cos theta * Real.cos (4 * theta) - Real.cos (3 * theta) := by
    have h1 := Real.cos_add (4 * theta) theta
    have h2 := Real.cos_sub (4 * theta) theta
    rw [show 4 * theta + theta = 5 * theta by ring] at h1
    rw [show 4 * theta - theta = 3 * theta by ring] at h2
    linear_combination h1 + h2
  push_cast
  rw [one_mul, zero_mul, Real.cos_zero, c5, c4, c3, c2]
  ring

/-- C106: A wave is multiplied by `1 - sigma * damping(theta)`: at the inner points of any array, and at all points
of an array that holds whole periods. -/
theorem wave (theta phi sigma : ℝ) (n : ℕ) :
    filter false (sample n fun i => Real.cos (i * theta + phi)) sigma =
      some (sample n fun i => if 5 ≤ i ∧ i + 5 < n then (1 - sigma * damping theta) * Real.cos (i * theta + phi)
        else Real.cos (i * theta + phi)) ∧
    (10 ≤ n → (∃ m : ℤ, n * theta = m * (2 * Real.pi)) →
      filter true (sample n fun i => Real.cos (i * theta + phi)) sigma =
        some (sample n fun i => (1 - sigma * damping theta) * Real.cos (i * theta + phi))) := by
  have hd : ∀ i, dissipation (fun i => Real.cos (i * theta + phi)) i = damping theta * Real.cos (i * theta + phi) := by
    intro i
    rw [damping_eq]
    refine dissipation_eigen (u := fun i : ℤ => Real.cos (i * theta + phi)) (fun i => ?_) i
    push_cast
    rw [show ((i : ℝ) + 1) * theta + phi = (i * theta + phi) + theta by ring,
      show ((i : ℝ) - 1) * theta + phi = (i * theta + phi) - theta by ring, Real.cos_add, Real.cos_sub]
    ring
  constructor
  · rw [open_ends]
    simp only [hd]
    congr 2
    funext i
    split_ifs <;> ring
  · rintro hn ⟨m, hm⟩
    rw [periodic (u := fun i : ℤ => Real.cos (i * theta + phi)) _ hn]
    · simp only [hd]
      congr 2
      funext i
      ring
    · intro i
      push_cast
      rw [show ((i : ℝ) + n) * theta + phi = (i * theta + phi) + m * (2 * Real.pi) by rw [← hm]; ring]
      exact Real.cos_add_int_mul_two_pi _ m

/-- C106: Damping is complete for the shortest wave, none for constants, and between zero and one for all waves up
to the rounding of the coefficients. -/
theorem damping_range (theta : ℝ) :
    damping 0 = 0 ∧ damping Real.pi = 1 ∧ -(1 / 10 ^ 23) ≤ damping theta ∧ damping theta ≤ 1 := by
  have h1 := Real.cos_le_one theta
  have h2 := Real.neg_one_le_cos theta
  refine ⟨?_, ?_, ?_, ?_⟩
  · rw [damping_eq, Real.cos_zero, symbol_eq]; norm_num
  · rw [damping_eq, Real.cos_pi, symbol_eq]; norm_num
  · rw [damping_eq]; exact symbol_lower (by linarith) (by linarith)
  · rw [damping_eq]; exact symbol_upper (by linarith) (by linarith)

/-- The tolerance is needed: the rounded coefficients amplify very long waves. -/
theorem damping_negative : ∃ theta, damping theta < 0 := by
  refine ⟨Real.arccos (1 - 2 * (1 / 10 ^ 13)), ?_⟩
  rw [damping_eq, Real.cos_arccos (by norm_num) (by norm_num), symbol_eq]
  norm_num

/-- C106: Long waves are damped to the sixth order only: up to the rounding of the coefficients the damping is at
most `theta ^ 6 / 1000`. -/
theorem damping_long {theta : ℝ} (h : |theta| ≤ 1 / 5) : damping theta ≤ theta ^ 6 / 1000 := by
  rw [damping_eq, symbol_eq]
  have hc : 1 - theta ^ 2 / 2 ≤ Real.cos theta := Real.one_sub_sq_div_two_le_cos
  have hc1 := Real.cos_le_one theta
  have ht2 : theta ^ 2 ≤ 1 / 25 := by
    have := sq_le_sq' (by linarith [abs_le.1 h]) (abs_le.1 h).2
    nlinarith [abs_le.1 h]
  set t := (1 - Real.cos theta) / 2
  have t0 : 0 ≤ t := by simp only [t]; linarith
  have t1 : t ≤ theta ^ 2 / 4 := by simp only [t]; linarith
  have t3 : t ^ 3 ≤ (theta ^ 2 / 4) ^ 3 := pow_le_pow_left₀ t0 t1 3
  have tt : t ≤ 1 / 100 := by linarith
  have : -0.000000000000064 * t ^ 2 + 0.047707800329792 * t ^ 3 - 0.528507112372736 * t ^ 4 + 1.480799312043008 * t ^ 5
      ≤ 0.05 * t ^ 3 := by
    nlinarith [mul_nonneg (pow_nonneg t0 4) (show 0 ≤ 1 / 100 - t by linarith), pow_nonneg t0 4, pow_nonneg t0 3, pow_nonneg t0 2]
  nlinarith [pow_nonneg (sq_nonneg theta) 3]

/-! ### Examples -/

example : ∃ new, filter true (sample 12 fun i => Real.cos (i * (2 * Real.pi / 12) + 1)) 1 = some new ∧
    new.sum = (sample 12 fun i => Real.cos (i * (2 * Real.pi / 12) + 1)).sum := by
  have h := (wave (2 * Real.pi / 12) 1 1 12).2 (by norm_num) ⟨1, by push_cast; ring⟩
  exact ⟨_, h, sum_kept h⟩

example : filter true (sample 10 fun i => (-1) ^ i.natAbs) 1 = some (sample 10 fun _ => 0) := by
  rw [periodic (u := fun i : ℤ => (-1) ^ i.natAbs)]
  · congr 2
    funext i
    have key : ∀ k : ℤ, ((-1 : ℝ)) ^ (k + 1).natAbs = -(-1) ^ k.natAbs := by
      intro k
      rcases Int.even_or_odd k with he | ho
      · rw [(Int.natAbs_odd.2 he.add_one).neg_one_pow, (Int.natAbs_even.2 he).neg_one_pow]
      · rw [(Int.natAbs_even.2 ho.add_one).neg_one_pow, (Int.natAbs_odd.2 ho).neg_one_pow]; ring
    rw [dissipation_eigen (t := 1), symbol_eq]
    · norm_num
    · intro k
      have h1 := key k
      have h2 := key (k - 1)
      rw [sub_add_cancel] at h2
      linarith
  · intro i
    rcases Int.even_or_odd i with he | ho
    · rw [(Int.natAbs_even.2 (he.add (by decide))).neg_one_pow, (Int.natAbs_even.2 he).neg_one_pow]
    · rw [(Int.natAbs_odd.2 (ho.add_even (by decide))).neg_one_pow, (Int.natAbs_odd.2 ho).neg_one_pow]
  · norm_num

end MiniCFD.PyFilter
