import Verif.Model.PyWave
import Mathlib.Analysis.SpecialFunctions.Complex.Circle
import Mathlib.Algebra.Field.GeomSum
import Mathlib.Algebra.BigOperators.Field
import Mathlib.Analysis.Real.Pi.Bounds

/-! # C124 and C125: the physical mode, and the discrete Fourier coefficients -/

namespace MiniCFD.PyWave
open MiniCFD.PyQuad

/-! ### The physical mode -/

theorem lower_spec (n : ℕ) (i : ℤ) (hn : 0 < n) :
    lower n i ≤ n ∧ (lower n i = i ∨ -(n : ℤ) < lower n i) ∧ ∃ k : ℤ, lower n i = i + 2 * n * k := by
  induction i using lower.induct (n := n) with
  | case1 i h ih =>
    obtain ⟨h1, h2, k, h3⟩ := ih
    rw [lower, if_pos h]
    refine ⟨h1, .inr ?_, k - 1, by rw [h3]; ring⟩
    rcases h2 with h2 | h2 <;> omega
  | case2 i h =>
    rw [lower, if_neg h]
    exact ⟨by omega, .inl rfl, 0, by ring⟩

theorem raise_spec (n : ℕ) (i : ℤ) (hn : 0 < n) (hi : i ≤ n) :
    -(n : ℤ) < raise n i ∧ raise n i ≤ n ∧ ∃ k : ℤ, raise n i = i + 2 * n * k := by
  induction i using raise.induct (n := n) with
  | case1 i h ih =>
    obtain ⟨h1, h2, k, h3⟩ := ih (by omega)
    rw [raise, if_pos h]
    exact ⟨h1, h2, k + 1, by rw [h3]; ring⟩
  | case2 i h =>
    rw [raise, if_neg h]
    exact ⟨by omega, hi, 0, by ring⟩

/-- The two assertions never fail.  The index is the number of the interval of length `π` that holds the wave number, counted from
0, folded at the ends of a period of `2 n` intervals. -/
theorem mode_index {n : ℕ} (hn : 0 < n) (kappa : ℝ) :
    modeIndex n kappa =
      some (min (⌊kappa / Real.pi⌋ % (2 * n)).toNat (2 * n - 1 - (⌊kappa / Real.pi⌋ % (2 * n)).toNat)) := by
  obtain ⟨h1, _, k, h3⟩ := lower_spec n ⌊kappa / Real.pi⌋ hn
  obtain ⟨g1, g2, l, g3⟩ := raise_spec n _ hn h1
  set f := ⌊kappa / Real.pi⌋
  set i := raise n (lower n f) with hi
  have hmod : f % (2 * n) = i % (2 * n) := by
    rw [g3, h3, show f + 2 * (n : ℤ) * k + 2 * n * l = f + 2 * n * (k + l) by ring, Int.add_mul_emod_self_left]
  have hr : i % (2 * n) = if i < 0 then i + 2 * n else i := by
    split_ifs with h
    · rw [← Int.add_emod_right, Int.emod_eq_of_lt (by omega) (by omega)]
    · rw [Int.emod_eq_of_lt (by omega) (by omega)]
  rw [hmod, hr]
  unfold modeIndex
  dsimp only
  rw [← hi, if_pos ⟨g1, g2⟩]
  by_cases h : i < 0
  · simp only [h, if_true]
    rw [if_pos (by omega)]
    congr 1
    omega
  · simp only [h, if_false]
    by_cases he : i = n
    · simp only [he, if_true]
      rw [if_pos (by omega)]
      congr 1
      omega
    · simp only [he, if_false]
      rw [if_pos (by omega)]
      congr 1
      omega

/-- The index is one of the modes, has period `2 n π`, and is even but at the ends of the intervals. -/
theorem mode_symmetric {n : ℕ} (hn : 0 < n) (kappa : ℝ) :
    (∃ i, modeIndex n kappa = some i ∧ i < n) ∧
    (∀ m : ℤ, modeIndex n (kappa + m * (2 * n * Real.pi)) = modeIndex n kappa) ∧
    ((∀ m : ℤ, kappa ≠ m * Real.pi) → modeIndex n (-kappa) = modeIndex n kappa) ∧
    (∀ j : ℕ, j < n → j * Real.pi ≤ kappa → kappa < (j + 1) * Real.pi → modeIndex n kappa = some j) := by
  have hpi := Real.pi_pos
  refine ⟨⟨_, mode_index hn kappa, ?_⟩, fun m => ?_, fun hk => ?_, fun j hj h1 h2 => ?_⟩
  · have := Int.emod_nonneg ⌊kappa / Real.pi⌋ (show (2 * (n : ℤ)) ≠ 0 by omega)
    have := Int.emod_lt_of_pos ⌊kappa / Real.pi⌋ (show 0 < 2 * (n : ℤ) by omega)
    omega
  · rw [mode_index hn, mode_index hn]
    have : (kappa + m * (2 * n * Real.pi)) / Real.pi = kappa / Real.pi + ((2 * n * m : ℤ) : ℝ) := by
      push_cast
      field_simp
    rw [this, Int.floor_add_intCast, Int.add_mul_emod_self_left]
  · rw [mode_index hn, mode_index hn]
    have hfl : ⌊-kappa / Real.pi⌋ = -⌊kappa / Real.pi⌋ - 1 := by
      rw [Int.floor_eq_iff]
      have h1 := Int.floor_le (kappa / Real.pi)
      have h2 := Int.lt_floor_add_one (kappa / Real.pi)
      have h3 : (⌊kappa / Real.pi⌋ : ℝ) ≠ kappa / Real.pi := by
        intro h
        refine hk ⌊kappa / Real.pi⌋ ?_
        rw [h]
        field_simp
      have h4 := lt_of_le_of_ne h1 h3
      rw [neg_div]
      push_cast
      constructor <;> linarith
    rw [hfl]
    set f := ⌊kappa / Real.pi⌋
    have h0 := Int.emod_nonneg f (show (2 * (n : ℤ)) ≠ 0 by omega)
    have h1 := Int.emod_lt_of_pos f (show 0 < 2 * (n : ℤ) by omega)
    have : (-f - 1) % (2 * n) = 2 * n - 1 - f % (2 * n) := by
      have e : -f - 1 = (2 * n - 1 - f % (2 * n)) + 2 * n * (-1 - f / (2 * n)) := by
        have := Int.emod_add_mul_ediv f (2 * n)
        linear_combination this
      rw [e, Int.add_mul_emod_self_left, Int.emod_eq_of_lt (by omega) (by omega)]
    rw [this]
    congr 1
    omega
  · rw [mode_index hn]
    have hfl : ⌊kappa / Real.pi⌋ = (j : ℤ) := by
      rw [Int.floor_eq_iff]
      constructor
      · rw [le_div_iff₀ hpi]; exact_mod_cast h1
      · rw [div_lt_iff₀ hpi]; exact_mod_cast h2
    rw [hfl, Int.emod_eq_of_lt (by omega) (by omega)]
    congr 1
    omega

open scoped Classical in
/-- The physical mode is an eigenvalue, as many eigenvalues as its index says come before it, and all these are at most as large as it. -/
theorem physical_mode {eigvals : List ℂ} (hne : eigvals ≠ []) (kappa : ℝ) :
    ∃ (i : ℕ) (z : ℂ) (before after : List ℂ), modeIndex eigvals.length kappa = some i ∧ physicalMode eigvals kappa = some z ∧
      eigvals.Perm (before ++ z :: after) ∧ before.length = i ∧ (∀ w ∈ before, ‖w‖ ≤ ‖z‖) ∧ ∀ w ∈ after, ‖z‖ ≤ ‖w‖ := by
  obtain ⟨i, hi, hlt⟩ := (mode_symmetric (List.length_pos_iff.2 hne) kappa).1
  set le : ℂ → ℂ → Bool := fun x y => decide (x.re ^ 2 + x.im ^ 2 ≤ y.re ^ 2 + y.im ^ 2) with hle
  set l := eigvals.mergeSort le with hl
  have hperm : l.Perm eigvals := List.mergeSort_perm _ _
  have hsort : l.Pairwise fun x y => le x y = true := by
    refine List.pairwise_mergeSort ?_ ?_ _
    · intro x y z h1 h2
      simp only [hle, decide_eq_true_eq] at *
      exact h1.trans h2
    · intro x y
      simp only [hle, Bool.or_eq_true, decide_eq_true_eq]
      exact le_total _ _
  have hlen : i < l.length := by rw [hperm.length_eq]; exact hlt
  have hnorm : ∀ x y : ℂ, le x y = true → ‖x‖ ≤ ‖y‖ := by
    intro x y h
    simp only [hle, decide_eq_true_eq] at h
    have e : ∀ x : ℂ, ‖x‖ ^ 2 = x.re ^ 2 + x.im ^ 2 := fun x => by
      rw [← Complex.normSq_eq_norm_sq, Complex.normSq_apply]; ring
    rw [← e, ← e] at h
    exact le_of_sq_le_sq h (norm_nonneg _)
  have hsplit : l = l.take i ++ l[i] :: l.drop (i + 1) := by
    rw [List.cons_getElem_drop_succ, List.take_append_drop]
  refine ⟨i, l[i], l.take i, l.drop (i + 1), hi, ?_, ?_, ?_, fun w hw => ?_, fun w hw => ?_⟩
  · unfold physicalMode
    dsimp only
    rw [hi, Option.bind_some]
    exact List.getElem?_eq_getElem hlen
  · rw [← hsplit]; exact hperm.symm
  · rw [List.length_take]; omega
  · rw [hsplit, List.pairwise_append] at hsort
    exact hnorm _ _ (hsort.2.2 w hw _ List.mem_cons_self)
  · rw [hsplit, List.pairwise_append, List.pairwise_cons] at hsort
    exact hnorm _ _ (hsort.2.1.1 w hw)

example : modeIndex 3 (-1) = some 0 ∧ modeIndex 3 4 = some 1 := by
  have h3 := Real.pi_gt_three
  have h4 := Real.pi_lt_d2
  refine ⟨?_, (mode_symmetric (by norm_num) 4).2.2.2 1 (by norm_num) (by push_cast; linarith) (by push_cast; linarith)⟩
  rw [(mode_symmetric (by norm_num) 1).2.2.1 fun m hm => ?_]
  · exact (mode_symmetric (by norm_num) 1).2.2.2 0 (by norm_num) (by simp) (by push_cast; linarith)
  · rcases le_or_gt m 0 with h | h
    · have : (m : ℝ) ≤ 0 := by exact_mod_cast h
      have := mul_nonpos_of_nonpos_of_nonneg this Real.pi_pos.le
      linarith
    · have : (1 : ℝ) ≤ m := by exact_mod_cast h
      have := mul_le_mul_of_nonneg_right this Real.pi_pos.le
      linarith

/-! ### The discrete Fourier coefficients -/

/-- The sample points are the centres of equal parts of the interval. -/
theorem sample_points {xLeft xRight : ℝ} {nElement perElement : ℕ} (h1 : 0 < nElement) (h2 : 0 < perElement) {j : ℕ}
    (hj : j < nElement * perElement) :
    samplePoint xLeft xRight nElement perElement j =
      xLeft + (j + 1 / 2) * ((xRight - xLeft) / ((nElement * perElement : ℕ) : ℝ)) := by
  unfold samplePoint Integrator.linspace
  have e1 : (nElement : ℝ) ≠ 0 := by positivity
  have e2 : (perElement : ℝ) ≠ 0 := by positivity
  by_cases h : nElement * perElement = 1
  · have hj0 : j = 0 := by omega
    have h3 : nElement = 1 := Nat.eq_one_of_mul_eq_one_right h
    have h4 : perElement = 1 := Nat.eq_one_of_mul_eq_one_left h
    subst hj0 h3 h4
    simp
    ring
  · have h3 : 1 ≤ nElement * perElement := Nat.mul_pos h1 h2
    have e3 : ((nElement * perElement - 1 : ℕ) : ℝ) = nElement * perElement - 1 := by
      rw [Nat.cast_sub h3]; push_cast; ring
    have e4 : (nElement : ℝ) * perElement - 1 ≠ 0 := by
      rw [← e3]
      have : nElement * perElement - 1 ≠ 0 := by omega
      exact_mod_cast this
    rw [e3]
    push_cast
    field_simp
    ring

theorem fourier_sum (points : ℕ → ℝ) (N : ℕ) (k : ℤ) (u : ℝ → ℂ) :
    fourierCoeff points N k u =
      (∑ j ∈ Finset.range N, u (points j) * Complex.exp (-(2 * Real.pi * Complex.I * j * k / N))) / N := by
  unfold fourierCoeff
  dsimp only
  have key : ∀ (f : ℕ → ℂ) (m : ℕ), (List.range m).foldl (fun acc j => acc + f j) 0 = ∑ j ∈ Finset.range m, f j := by
    intro f m
    induction m with
    | zero => rfl
    | succ m ih => rw [List.range_succ, List.foldl_append, ih, Finset.sum_range_succ]; rfl
  rw [key]
  congr 1
  refine Finset.sum_congr rfl fun j _ => ?_
  rw [← Complex.exp_int_mul]
  congr 2
  push_cast
  ring

/-- Linear in the function. -/
theorem fourier_linear (points : ℕ → ℝ) (N : ℕ) (k : ℤ) (u v : ℝ → ℂ) (b : ℂ) :
    fourierCoeff points N k (fun x => u x + b * v x) = fourierCoeff points N k u + b * fourierCoeff points N k v := by
  simp only [fourier_sum, add_mul, Finset.sum_add_distrib, add_div, mul_div_assoc', Finset.mul_sum, mul_assoc]

/-- Sums of the powers of a root of unity. -/
theorem sum_roots {N : ℕ} (hN : 0 < N) (d : ℤ) :
    ∑ j ∈ Finset.range N, Complex.exp (2 * Real.pi * Complex.I * j * d / N) = if (N : ℤ) ∣ d then (N : ℂ) else 0 := by
  have hNC : (N : ℂ) ≠ 0 := by exact_mod_cast hN.ne'
  have hpow : ∀ j : ℕ, Complex.exp (2 * Real.pi * Complex.I * j * d / N) = Complex.exp (2 * Real.pi * Complex.I * d / N) ^ j := by
    intro j
    rw [← Complex.exp_nat_mul]
    congr 1
    ring
  simp only [hpow]
  split_ifs with h
  · obtain ⟨e, rfl⟩ := h
    have : Complex.exp (2 * Real.pi * Complex.I * ((N * e : ℤ) : ℂ) / N) = 1 := by
      rw [Complex.exp_eq_one_iff]
      exact ⟨e, by push_cast; field_simp⟩
    rw [this]
    simp
  · have hne : Complex.exp (2 * Real.pi * Complex.I * d / N) ≠ 1 := by
      rw [Ne, Complex.exp_eq_one_iff]
      rintro ⟨e, he⟩
      apply h
      refine ⟨e, ?_⟩
      have h2 : (2 * Real.pi * Complex.I : ℂ) ≠ 0 := Complex.two_pi_I_ne_zero
      have : (d : ℂ) = N * e := by
        field_simp at he
        exact he
      exact_mod_cast this
    rw [geom_sum_eq hne, ← Complex.exp_nat_mul]
    have : Complex.exp (N * (2 * Real.pi * Complex.I * d / N)) = 1 := by
      rw [Complex.exp_eq_one_iff]
      exact ⟨d, by field_simp⟩
    rw [this, sub_self, zero_div]

/-- A harmonic of the interval is seen as itself and, the samples being finitely many, as all the harmonics that differ from it by a
multiple of the number of samples; no other coefficient sees it. -/
theorem fourier_harmonic {xLeft xRight : ℝ} (hx : xLeft < xRight) {nElement perElement : ℕ} (h1 : 0 < nElement)
    (h2 : 0 < perElement) (k m : ℤ) :
    fourierCoeff (samplePoint xLeft xRight nElement perElement) (nElement * perElement) k
        (fun x => Complex.exp (Complex.I * ((2 * Real.pi * m / (xRight - xLeft) * x : ℝ) : ℂ))) =
      if ((nElement * perElement : ℕ) : ℤ) ∣ m - k then
        Complex.exp (Complex.I * ((2 * Real.pi * m / (xRight - xLeft) * samplePoint xLeft xRight nElement perElement 0 : ℝ) : ℂ))
      else 0 := by
  set N := nElement * perElement with hNdef
  have hN : 0 < N := Nat.mul_pos h1 h2
  have hNC : (N : ℂ) ≠ 0 := by exact_mod_cast hN.ne'
  have hL : xRight - xLeft ≠ 0 := by linarith
  have hLC : ((xRight - xLeft : ℝ) : ℂ) ≠ 0 := by exact_mod_cast hL
  rw [fourier_sum]
  set e0 := Complex.exp (Complex.I * ((2 * Real.pi * m / (xRight - xLeft) * samplePoint xLeft xRight nElement perElement 0 : ℝ) : ℂ))
    with he0
  have hterm : ∀ j ∈ Finset.range N, Complex.exp (Complex.I * ((2 * Real.pi * m / (xRight - xLeft) *
        samplePoint xLeft xRight nElement perElement j : ℝ) : ℂ)) * Complex.exp (-(2 * Real.pi * Complex.I * j * k / N)) =
      e0 * Complex.exp (2 * Real.pi * Complex.I * j * ((m - k : ℤ) : ℂ) / N) := by
    intro j hj
    have hj := Finset.mem_range.1 hj
    rw [he0, ← Complex.exp_add, ← Complex.exp_add]
    congr 1
    rw [sample_points h1 h2 hj, sample_points h1 h2 hN]
    rw [← hNdef]
    push_cast at hLC ⊢
    field_simp
    ring
  rw [Finset.sum_congr rfl hterm, ← Finset.mul_sum, sum_roots hN]
  split_ifs with h
  · rw [mul_div_assoc, div_self hNC, mul_one]
  · simp

/-- The coefficients give the samples back. -/
theorem fourier_inverse (points : ℕ → ℝ) {N : ℕ} (u : ℝ → ℂ) {j : ℕ} (hj : j < N) :
    ∑ k ∈ Finset.range N, fourierCoeff points N k u * Complex.exp (2 * Real.pi * Complex.I * j * k / N) = u (points j) := by
  have hN : 0 < N := by omega
  have hNC : (N : ℂ) ≠ 0 := by exact_mod_cast hN.ne'
  simp only [fourier_sum, div_mul_eq_mul_div, Finset.sum_mul, ← Finset.sum_div]
  rw [Finset.sum_comm, div_eq_iff hNC]
  have hin : ∀ i ∈ Finset.range N, ∑ k ∈ Finset.range N, u (points i) * Complex.exp (-(2 * Real.pi * Complex.I * i * (k : ℤ) / N)) *
      Complex.exp (2 * Real.pi * Complex.I * j * k / N) = if i = j then u (points i) * N else 0 := by
    intro i hi
    have hi := Finset.mem_range.1 hi
    have hterm : ∀ k ∈ Finset.range N, u (points i) * Complex.exp (-(2 * Real.pi * Complex.I * i * (k : ℤ) / N)) *
        Complex.exp (2 * Real.pi * Complex.I * j * k / N) =
        u (points i) * Complex.exp (2 * Real.pi * Complex.I * k * (((j : ℤ) - i : ℤ) : ℂ) / N) := by
      intro k _
      rw [mul_assoc, ← Complex.exp_add]
      congr 2
      push_cast
      ring
    rw [Finset.sum_congr rfl hterm, ← Finset.mul_sum, sum_roots hN]
    by_cases h : i = j
    · subst h
      simp
    · rw [if_neg h, if_neg, mul_zero]
      intro hd
      have := Int.eq_zero_of_abs_lt_dvd hd (by rw [abs_lt]; constructor <;> omega)
      omega
  rw [Finset.sum_congr rfl hin, Finset.sum_ite_eq' , if_pos (Finset.mem_range.2 hj)]

end MiniCFD.PyWave
