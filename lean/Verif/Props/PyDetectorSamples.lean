import Verif.Lemmas.PyDetector
import Verif.Props.PyGauss

/-!
# C110: the detector on samples
-/

namespace MiniCFD.PyDetector

open MiniCFD.PyQuad MiniCFD.PyExpansion MiniCFD.PyLimiter

private theorem epsilon_pos : 0 < epsilon := by unfold epsilon psiC xi; norm_num

private theorem psiC_pos : 0 < psiC := by unfold psiC; norm_num

private theorem psiC_lt_one : psiC < 1 := by unfold psiC; norm_num

/-- The indicator of `LiYanHui2022` from the two one-sided differences. -/
private noncomputable def ratio (a b : ℝ) : ℝ := (2 * a * b + epsilon) / (a ^ 2 + b ^ 2 + epsilon)

private theorem ratio_range {a b : ℝ} (ha : 0 ≤ a) (hb : 0 ≤ b) : 0 < ratio a b ∧ ratio a b ≤ 1 ∧ (ratio a b = 1 ↔ a = b) := by
  have he := epsilon_pos
  have hd : 0 < a ^ 2 + b ^ 2 + epsilon := by positivity
  refine ⟨div_pos (by positivity) hd, (div_le_one hd).2 (by nlinarith [sq_nonneg (a - b)]), ?_⟩
  rw [ratio, div_eq_one_iff_eq hd.ne']
  constructor
  · intro h
    have : (a - b) ^ 2 = 0 := by linear_combination -h
    linarith [pow_eq_zero_iff (two_ne_zero) |>.1 this]
  · rintro rfl; ring

section
variable {m p n : ℕ}

/-- C110: The indicator of each sample is positive and at most one, and it is one exactly if the differences to the left
and to the right are the same in size. -/
theorem psi_range (count : ℕ) (u : ℕ → Value m) (i : ℕ) (k : Fin (m + 1)) :
    0 < psiAt count u i k ∧ psiAt count u i k ≤ 1 ∧ (psiAt count u i k = 1 ↔
      |u i k - u (wrap count (i - 1)) k| + |u i k - 2 * u (wrap count (i - 1)) k + u (wrap count (i - 2)) k| =
      |u i k - u ((i + 1) % count) k| + |u i k - 2 * u ((i + 1) % count) k + u ((i + 2) % count) k|) :=
  ratio_range (by positivity) (by positivity)

private theorem wrap_sub {count i : ℕ} (d : ℕ) (hd : d ≤ i) : wrap count ((i : ℤ) - d) = i - d := by
  unfold wrap
  rw [if_neg (by omega)]
  omega

private theorem psi_inner {count i : ℕ} (u : ℕ → Value m) (h2 : 2 ≤ i) (hi : i + 2 < count) (k : Fin (m + 1)) :
    psiAt count u i k = ratio (|u i k - u (i - 1) k| + |u i k - 2 * u (i - 1) k + u (i - 2) k|)
      (|u i k - u (i + 1) k| + |u i k - 2 * u (i + 1) k + u (i + 2) k|) := by
  have e1 := wrap_sub (count := count) (i := i) 1 (by omega)
  have e2 := wrap_sub (count := count) (i := i) 2 h2
  push_cast at e1 e2
  unfold psiAt
  dsimp only
  rw [e1, e2, Nat.mod_eq_of_lt (show i + 1 < count by omega), Nat.mod_eq_of_lt hi]
  rfl

theorem perCell_ge (p : ℕ) : 3 ≤ perCell p := le_max_right _ _

theorem liYanHui_mem (periodic : Bool) (cells : Fin (n + 1) → Cell p m) (i : Fin (n + 1)) :
    i ∈ liYanHui periodic cells ↔ ∃ j < perCell p, ∃ k,
      min (min (psiValues periodic ((n + 1) * perCell p) (samples cells) (perCell p * i + j) k)
        (psiValues periodic ((n + 1) * perCell p) (samples cells)
          (wrap ((n + 1) * perCell p) (((perCell p * i + j : ℕ) : ℤ) - 1)) k))
        (psiValues periodic ((n + 1) * perCell p) (samples cells) ((perCell p * i + j + 1) % ((n + 1) * perCell p)) k) < psiC := by
  unfold liYanHui
  rw [(collect_spec _).1 i, List.any_eq_true]
  simp only [List.mem_range, badNode, decide_eq_true_eq]

/-- C110: The reported elements are in increasing order, without repetition. -/
theorem liYanHui_sorted (periodic : Bool) (cells : Fin (n + 1) → Cell p m) : (liYanHui periodic cells).Pairwise (· < ·) :=
  (collect_spec _).2

theorem samples_at (cells : Fin (n + 1) → Cell p m) (i : Fin (n + 1)) {j : ℕ} (hj : j < perCell p) :
    samples cells (perCell p * i + j) = sampleAt (cells i) j := by
  have hp : 0 < perCell p := by have := perCell_ge p; omega
  have h1 : (perCell p * i + j) / perCell p = i := by
    rw [Nat.mul_add_div hp, Nat.div_eq_of_lt hj, add_zero]
  have h2 : (perCell p * i + j) % perCell p = j := by
    rw [Nat.mul_add_mod, Nat.mod_eq_of_lt hj]
  unfold samples
  simp only [h1, h2, Fin.is_lt, dite_true, Fin.eta]

theorem samples_split (cells : Fin (n + 1) → Cell p m) {i : ℕ} (hi : i < (n + 1) * perCell p) :
    ∃ (c : Fin (n + 1)) (j : ℕ), j < perCell p ∧ i = perCell p * c + j ∧ samples cells i = sampleAt (cells c) j := by
  have hp : 0 < perCell p := by have := perCell_ge p; omega
  have hc : i / perCell p < n + 1 := (Nat.div_lt_iff_lt_mul hp).2 hi
  refine ⟨⟨i / perCell p, hc⟩, i % perCell p, Nat.mod_lt _ hp, (Nat.div_add_mod _ _).symm, ?_⟩
  have := samples_at cells ⟨i / perCell p, hc⟩ (Nat.mod_lt i hp)
  rwa [show perCell p * ((⟨i / perCell p, hc⟩ : Fin (n + 1)) : ℕ) + i % perCell p = i from Nat.div_add_mod _ _] at this

/-- C110: A solution that is linear over a grid of equal elements is not reported. -/
theorem liYanHui_linear (cells : Fin (n + 1) → Cell p m) (x0 h : ℝ)
    (hgrid : ∀ i, (cells i).setup.coordinate.xLeft = x0 + i * h ∧ (cells i).setup.coordinate.xRight = x0 + (i + 1) * h)
    (α β : Value m) (hu : ∀ i x, (cells i).setup.value (cells i).state x = α + x • β) : liYanHui false cells = [] := by
  have hN := perCell_ge p
  have hs : ∀ i < (n + 1) * perCell p, ∀ k, samples cells i k = α k + (x0 + (i + 1 / 2) * (h / perCell p)) * β k := by
    intro i hi k
    obtain ⟨c, j, hj, e, hsj⟩ := samples_split cells hi
    rw [hsj, sampleAt]
    rw [hu, Pi.add_apply, Pi.smul_apply, smul_eq_mul]
    have e1 : ((i : ℕ) : ℝ) = perCell p * c + j := by rw [e]; push_cast; ring
    have hNr : (perCell p : ℝ) ≠ 0 := by positivity
    have hN1 : ((perCell p - 1 : ℕ) : ℝ) = perCell p - 1 := by rw [Nat.cast_sub (by omega)]; simp
    have hN2 : ((perCell p : ℝ) - 1) ≠ 0 := by
      have : (3 : ℝ) ≤ perCell p := by exact_mod_cast hN
      linarith
    congr 2
    rw [Coordinate.eq_linear _ |>.1, (hgrid c).1, (hgrid c).2, Integrator.linspace, hN1, e1]
    field_simp
    ring
  have hpsi : ∀ i < (n + 1) * perCell p, ∀ k, psiC ≤ psiValues false ((n + 1) * perCell p) (samples cells) i k := by
    intro i hi k
    unfold psiValues
    simp only [Bool.false_eq_true, if_false]
    split_ifs with hend
    · exact le_rfl
    · have h2 : 2 ≤ i := by omega
      have hi2 : i + 2 < (n + 1) * perCell p := by omega
      refine psiC_lt_one.le.trans (Eq.ge ?_)
      rw [psi_inner _ h2 hi2, (ratio_range (by positivity) (by positivity)).2.2, hs i hi, hs (i - 1) (by omega),
        hs (i - 2) (by omega), hs (i + 1) (by omega), hs (i + 2) hi2, Nat.cast_sub (by omega), Nat.cast_sub h2]
      push_cast
      congr 1
      · rw [← abs_neg]; congr 1; ring
      · congr 1; ring
  refine List.eq_nil_iff_forall_not_mem.2 fun i hi => ?_
  obtain ⟨j, hj, k, hlt⟩ := (liYanHui_mem _ _ _).1 hi
  have hij : perCell p * i + j < (n + 1) * perCell p := by
    have : (i : ℕ) + 1 ≤ n + 1 := i.2
    nlinarith
  have hw : wrap ((n + 1) * perCell p) (((perCell p * i + j : ℕ) : ℤ) - 1) < (n + 1) * perCell p := by
    unfold wrap; split_ifs <;> omega
  have hm : (perCell p * i + j + 1) % ((n + 1) * perCell p) < (n + 1) * perCell p := Nat.mod_lt _ (by omega)
  exact absurd hlt (not_lt.2 (le_min (le_min (hpsi _ hij k) (hpsi _ hw k)) (hpsi _ hm k)))

/-- C110: A solution that has one value in all elements is not reported, on any grid, periodic or not. -/
theorem liYanHui_constant (periodic : Bool) (cells : Fin (n + 1) → Cell p m) (A : Value m)
    (hu : ∀ i x, (cells i).setup.value (cells i).state x = A) : liYanHui periodic cells = [] := by
  have hN := perCell_ge p
  have hs : ∀ i < (n + 1) * perCell p, samples cells i = A := by
    intro i hi
    obtain ⟨c, j, hj, e, hsj⟩ := samples_split cells hi
    rw [hsj, sampleAt]
    exact hu _ _
  have hcount : 3 ≤ (n + 1) * perCell p := by nlinarith
  have hwrap : ∀ i < (n + 1) * perCell p, ∀ d : ℤ, 0 ≤ d → d ≤ 2 →
      wrap ((n + 1) * perCell p) ((i : ℤ) - d) < (n + 1) * perCell p := by
    intro i hi d h0 h2
    unfold wrap; split_ifs <;> omega
  have hm : ∀ i, i % ((n + 1) * perCell p) < (n + 1) * perCell p := fun i => Nat.mod_lt _ (by omega)
  have hpsi : ∀ i < (n + 1) * perCell p, ∀ k, psiC ≤ psiValues periodic ((n + 1) * perCell p) (samples cells) i k := by
    intro i hi k
    have h1 : psiAt ((n + 1) * perCell p) (samples cells) i k = 1 := by
      rw [(psi_range _ _ _ _).2.2, hs i hi, hs _ (hwrap i hi 1 (by omega) (by omega)),
        hs _ (hwrap i hi 2 (by omega) (by omega)), hs _ (hm _), hs _ (hm _)]
    unfold psiValues
    split_ifs
    · rw [h1]; exact psiC_lt_one.le
    · exact le_rfl
    · rw [h1]; exact psiC_lt_one.le
  refine List.eq_nil_iff_forall_not_mem.2 fun i hi => ?_
  obtain ⟨j, hj, k, hlt⟩ := (liYanHui_mem _ _ _).1 hi
  have hij : perCell p * i + j < (n + 1) * perCell p := by
    have : (i : ℕ) + 1 ≤ n + 1 := i.2
    nlinarith
  exact absurd hlt (not_lt.2 (le_min (le_min (hpsi _ hij k) (hpsi _ (hwrap _ hij 1 (by omega) (by omega)) k)) (hpsi _ (hm _) k)))

private theorem ratio_zero_lt {b : ℝ} : ratio 0 b < psiC ↔ epsilon * (1 - psiC) < b ^ 2 * psiC := by
  have he := epsilon_pos
  rw [ratio, div_lt_iff₀ (by positivity)]
  constructor <;> intro h <;> nlinarith

private theorem ratio_comm (a b : ℝ) : ratio a b = ratio b a := by
  unfold ratio; congr 1 <;> ring

/-- C110: A single jump between two constant states, at the face behind element `c`: the two elements beside the face are
reported if the jump of some component is large enough, and no other element is ever reported. -/
theorem liYanHui_jump (cells : Fin (n + 1) → Cell p m) (c : Fin n) (A B : Value m)
    (hu : ∀ (i : Fin (n + 1)) x, (cells i).setup.value (cells i).state x = if i ≤ c.castSucc then A else B) :
    liYanHui false cells =
      if ∃ k, epsilon * (1 - psiC) < 4 * (B k - A k) ^ 2 * psiC then [c.castSucc, c.succ] else [] := by
  have hN := perCell_ge p
  have he := epsilon_pos
  have hp1 := psiC_lt_one
  have hp0 := psiC_pos
  set N := perCell p with hNdef
  set s := N * (c + 1) with hsdef
  set count := (n + 1) * N with hcount
  have hc : (c : ℕ) + 2 ≤ n + 1 := by have := c.2; omega
  have hsc : s + N ≤ count := by rw [hsdef, hcount]; nlinarith
  have hs3 : N ≤ s := by rw [hsdef]; nlinarith
  have hval : ∀ i < count, samples cells i = if i < s then A else B := by
    intro i hi
    obtain ⟨d, j, hj, e, hsj⟩ := samples_split cells hi
    rw [hsj, sampleAt, hu]
    have : d ≤ c.castSucc ↔ i < s := by
      rw [Fin.le_def, Fin.val_castSucc, e, hsdef, ← hNdef]
      constructor
      · intro h; nlinarith
      · intro h
        by_contra hlt
        push Not at hlt
        have : N * (c + 1) ≤ N * d := Nat.mul_le_mul_left _ hlt
        omega
    simp only [this]
  have hA : ∀ i, i < s → samples cells i = A := fun i hi => by rw [hval i (by omega), if_pos hi]
  have hB : ∀ i, s ≤ i → i < count → samples cells i = B := fun i hi h => by rw [hval i h, if_neg (by omega)]
  set psi := psiValues false count (samples cells) with hpsi
  have hinner : ∀ i k, 2 ≤ i → i + 2 < count → psi i k = psiAt count (samples cells) i k := by
    intro i k h2 hi
    rw [hpsi, psiValues, if_neg (by simp), if_neg (by omega)]
  have hnear : ∀ i < count, ∀ k, psi i k < psiC → s ≤ i + 2 ∧ i ≤ s + 1 ∧ epsilon * (1 - psiC) < 4 * (B k - A k) ^ 2 * psiC := by
    intro i hi k hlt
    by_cases hend : i = 0 ∨ i = 1 ∨ i = count - 1 ∨ i = count - 2
    · rw [hpsi, psiValues, if_neg (by simp), if_pos hend] at hlt
      exact absurd hlt (lt_irrefl _)
    · have h2 : 2 ≤ i := by omega
      have hi2 : i + 2 < count := by omega
      rw [hinner i k h2 hi2, psi_inner _ h2 hi2] at hlt
      by_cases h1 : i + 2 < s
      · rw [hA i (by omega), hA (i - 1) (by omega), hA (i - 2) (by omega), hA (i + 1) (by omega), hA (i + 2) h1,
          (ratio_range (by positivity) (by positivity)).2.2.2 rfl] at hlt
        linarith
      · by_cases h3 : s + 1 < i
        · rw [hB i (by omega) hi, hB (i - 1) (by omega) (by omega), hB (i - 2) (by omega) (by omega),
            hB (i + 1) (by omega) (by omega), hB (i + 2) (by omega) hi2,
            (ratio_range (by positivity) (by positivity)).2.2.2 rfl] at hlt
          linarith
        · refine ⟨by omega, by omega, ?_⟩
          have key : ∀ d, d = (B k - A k) ^ 2 ∨ d = 4 * (B k - A k) ^ 2 → epsilon * (1 - psiC) < d * psiC →
              epsilon * (1 - psiC) < 4 * (B k - A k) ^ 2 * psiC := by
            intro d hd h
            rcases hd with rfl | rfl
            · nlinarith [sq_nonneg (B k - A k), mul_nonneg (sq_nonneg (B k - A k)) hp0.le]
            · exact h
          have hcases : i + 2 = s ∨ i + 1 = s ∨ i = s ∨ i = s + 1 := by omega
          rcases hcases with e | e | e | e
          · rw [hA i (by omega), hA (i - 1) (by omega), hA (i - 2) (by omega), hA (i + 1) (by omega),
              hB (i + 2) (by omega) hi2, show |A k - A k| + |A k - 2 * A k + A k| = 0 by rw [show A k - 2 * A k + A k = 0 by ring]; simp,
              ratio_zero_lt] at hlt
            refine key _ (Or.inl ?_) hlt
            rw [sub_self, abs_zero, zero_add, sq_abs]; ring
          · rw [hA i (by omega), hA (i - 1) (by omega), hA (i - 2) (by omega), hB (i + 1) (by omega) (by omega),
              hB (i + 2) (by omega) hi2, show |A k - A k| + |A k - 2 * A k + A k| = 0 by rw [show A k - 2 * A k + A k = 0 by ring]; simp,
              ratio_zero_lt] at hlt
            refine key _ (Or.inr ?_) hlt
            rw [show A k - 2 * B k + B k = A k - B k by ring, ← two_mul, mul_pow, sq_abs]; ring
          · rw [hB i (by omega) hi, hA (i - 1) (by omega), hA (i - 2) (by omega), hB (i + 1) (by omega) (by omega),
              hB (i + 2) (by omega) hi2, ratio_comm,
              show |B k - B k| + |B k - 2 * B k + B k| = 0 by rw [show B k - 2 * B k + B k = 0 by ring]; simp,
              ratio_zero_lt] at hlt
            refine key _ (Or.inr ?_) hlt
            rw [show B k - 2 * A k + A k = B k - A k by ring, ← two_mul, mul_pow, sq_abs]; ring
          · rw [hB i (by omega) hi, hB (i - 1) (by omega) (by omega), hA (i - 2) (by omega), hB (i + 1) (by omega) (by omega),
              hB (i + 2) (by omega) hi2, ratio_comm,
              show |B k - B k| + |B k - 2 * B k + B k| = 0 by rw [show B k - 2 * B k + B k = 0 by ring]; simp,
              ratio_zero_lt] at hlt
            refine key _ (Or.inl ?_) hlt
            rw [sub_self, abs_zero, zero_add, sq_abs]; ring
  have hbig : ∀ k, epsilon * (1 - psiC) < 4 * (B k - A k) ^ 2 * psiC → psi (s - 1) k < psiC ∧ psi s k < psiC := by
    intro k hk
    constructor
    · rw [hinner _ _ (by omega) (by omega), psi_inner _ (by omega) (by omega), hA (s - 1) (by omega), hA (s - 1 - 1) (by omega),
        hA (s - 1 - 2) (by omega), hB (s - 1 + 1) (by omega) (by omega), hB (s - 1 + 2) (by omega) (by omega),
        show |A k - A k| + |A k - 2 * A k + A k| = 0 by rw [show A k - 2 * A k + A k = 0 by ring]; simp, ratio_zero_lt,
        show A k - 2 * B k + B k = A k - B k by ring, ← two_mul, mul_pow, sq_abs]
      linarith
    · rw [hinner _ _ (by omega) (by omega), psi_inner _ (by omega) (by omega), hB s (by omega) (by omega), hA (s - 1) (by omega),
        hA (s - 2) (by omega), hB (s + 1) (by omega) (by omega), hB (s + 2) (by omega) (by omega), ratio_comm,
        show |B k - B k| + |B k - 2 * B k + B k| = 0 by rw [show B k - 2 * B k + B k = 0 by ring]; simp, ratio_zero_lt,
        show B k - 2 * A k + A k = B k - A k by ring, ← two_mul, mul_pow, sq_abs]
      linarith
  have hmem : ∀ i, i ∈ liYanHui false cells ↔
      (∃ k, epsilon * (1 - psiC) < 4 * (B k - A k) ^ 2 * psiC) ∧ (i = c.castSucc ∨ i = c.succ) := by
    intro i
    rw [liYanHui_mem, ← hNdef, ← hcount, ← hpsi]
    constructor
    · rintro ⟨j, hj, k, hlt⟩
      have hij : N * i + j < count := by
        have : (i : ℕ) + 1 ≤ n + 1 := i.2
        rw [hcount]; nlinarith
      have hloc : (∃ k, epsilon * (1 - psiC) < 4 * (B k - A k) ^ 2 * psiC) ∧ s ≤ N * i + j + 3 ∧ N * i + j ≤ s + 2 := by
        rcases min_lt_iff.1 hlt with hlt | hlt
        · rcases min_lt_iff.1 hlt with hlt | hlt
          · obtain ⟨h1, h2, h3⟩ := hnear _ hij k hlt
            exact ⟨⟨k, h3⟩, by omega, by omega⟩
          · have hw : wrap count (((N * i + j : ℕ) : ℤ) - 1) < count := by unfold wrap; split_ifs <;> omega
            obtain ⟨h1, h2, h3⟩ := hnear _ hw k hlt
            refine ⟨⟨k, h3⟩, ?_⟩
            unfold wrap at h1 h2
            split_ifs at h1 h2 <;> omega
        · have hm : (N * i + j + 1) % count < count := Nat.mod_lt _ (by omega)
          obtain ⟨h1, h2, h3⟩ := hnear _ hm k hlt
          refine ⟨⟨k, h3⟩, ?_⟩
          by_cases hlast : N * i + j + 1 = count
          · rw [hlast, Nat.mod_self] at h1 h2; omega
          · rw [Nat.mod_eq_of_lt (by omega)] at h1 h2; omega
      refine ⟨hloc.1, ?_⟩
      have h1 : (c : ℕ) ≤ i := by
        by_contra hlt
        push Not at hlt
        have : N * (i + 1) ≤ N * c := Nat.mul_le_mul_left _ hlt
        have := hloc.2.1
        rw [hsdef] at this
        have e1 : N * (i + 1) = N * i + N := by ring
        have e2 : N * (c + 1) = N * c + N := by ring
        omega
      have h2 : (i : ℕ) ≤ c + 1 := by
        by_contra hlt
        push Not at hlt
        have : N * (c + 2) ≤ N * i := Nat.mul_le_mul_left _ hlt
        have := hloc.2.2
        rw [hsdef] at this
        have e1 : N * (c + 2) = N * (c + 1) + N := by ring
        omega
      rcases (show (i : ℕ) = c ∨ (i : ℕ) = c + 1 by omega) with e | e
      · exact Or.inl (Fin.ext e)
      · exact Or.inr (Fin.ext e)
    · rintro ⟨⟨k, hk⟩, hi⟩
      obtain ⟨h1, h2⟩ := hbig k hk
      rcases hi with rfl | rfl
      · refine ⟨N - 1, by omega, k, ?_⟩
        have : N * (c.castSucc : ℕ) + (N - 1) = s - 1 := by
          rw [hsdef, Fin.val_castSucc, mul_add, mul_one]; omega
        rw [this]
        exact min_lt_iff.2 (Or.inl (min_lt_iff.2 (Or.inl h1)))
      · refine ⟨0, by omega, k, ?_⟩
        have : N * (c.succ : ℕ) + 0 = s := by rw [hsdef, Fin.val_succ, add_zero]
        rw [this]
        exact min_lt_iff.2 (Or.inl (min_lt_iff.2 (Or.inl h2)))
  have hsorted := liYanHui_sorted false cells
  split_ifs with hk
  · refine List.Perm.eq_of_pairwise (le := (· < ·)) (fun a b _ _ h1 h2 => absurd h1 (lt_asymm h2)) hsorted
      (List.pairwise_pair.2 (Fin.castSucc_lt_succ)) ?_
    refine (List.perm_ext_iff_of_nodup (hsorted.imp fun h => ne_of_lt h) (by
      rw [List.nodup_cons]; exact ⟨by simpa using (Fin.castSucc_lt_succ (i := c)).ne, List.nodup_singleton _⟩)).2 fun i => ?_
    rw [hmem]
    simp [hk]
  · refine List.eq_nil_iff_forall_not_mem.2 fun i hi => hk ((hmem i).1 hi).1

/-- C110: Whether an inner element is reported depends on its own solution and on those of its two neighbours only. -/
theorem liYanHui_local (periodic : Bool) (cells cells' : Fin (n + 1) → Cell p m) (i : Fin (n + 1)) (h1 : 1 ≤ (i : ℕ)) (h2 : (i : ℕ) < n)
    (h : ∀ j : Fin (n + 1), (i : ℕ) ≤ j + 1 → (j : ℕ) ≤ i + 1 → cells j = cells' j) :
    i ∈ liYanHui periodic cells ↔ i ∈ liYanHui periodic cells' := by
  have hN := perCell_ge p
  set N := perCell p with hNdef
  set count := (n + 1) * N with hcount
  have hlow : N ≤ N * i := Nat.le_mul_of_pos_right _ h1
  have hhigh : N * i + 2 * N ≤ count := by rw [hcount]; nlinarith
  have hs : ∀ l, N * i ≤ l + 3 → l < N * i + N + 3 → samples cells l = samples cells' l := by
    intro l hl1 hl2
    have hl : l < count := by omega
    obtain ⟨c, j, hj, e, hsj⟩ := samples_split cells hl
    rw [hsj, e, samples_at cells' c hj]
    rw [← hNdef] at e hj
    have e1 : N * (c + 1) = N * c + N := by ring
    have e2 : N * (i + 1) = N * i + N := by ring
    have e3 : N * (i + 2) = N * i + 2 * N := by ring
    rw [h c]
    · by_contra hlt
      push Not at hlt
      have : N * (c + 2) ≤ N * i := Nat.mul_le_mul_left _ hlt
      have e4 : N * (c + 2) = N * c + 2 * N := by ring
      omega
    · by_contra hlt
      push Not at hlt
      have : N * (i + 2) ≤ N * c := Nat.mul_le_mul_left _ hlt
      omega
  have hpsi : ∀ l, N * i ≤ l + 1 → l < N * i + N + 1 → psiValues periodic count (samples cells) l = psiValues periodic count (samples cells') l := by
    intro l hl1 hl2
    have hat : psiAt count (samples cells) l = psiAt count (samples cells') l := by
      funext k
      rw [psi_inner _ (by omega) (by omega), psi_inner _ (by omega) (by omega), hs l (by omega) (by omega),
        hs (l - 1) (by omega) (by omega), hs (l - 2) (by omega) (by omega), hs (l + 1) (by omega) (by omega),
        hs (l + 2) (by omega) (by omega)]
    unfold psiValues
    rw [hat]
  rw [liYanHui_mem, liYanHui_mem, ← hNdef, ← hcount]
  refine exists_congr fun j => and_congr_right fun hj => exists_congr fun k => ?_
  have ew := wrap_sub (count := count) (i := N * i + j) 1 (by omega)
  rw [Nat.cast_one] at ew
  rw [ew, Nat.mod_eq_of_lt (by omega), hpsi _ (by omega) (by omega), hpsi _ (by omega) (by omega), hpsi _ (by omega) (by omega)]

/-- A jump of 1 is found; a jump of 1/1000 is not. -/
example : ∃ s : Setup 1, Built (.linear 0 1) s ∧
    let cells : ℝ → Fin 3 → Cell 1 0 := fun J i =>
      ⟨s, setTaylor s fun l => if l = 0 then (if i ≤ (1 : Fin 2).castSucc then 0 else fun _ => J) else 0, none, none⟩
    liYanHui false (cells 1) = [1, 2] ∧ liYanHui false (cells (1 / 1000)) = [] := by
  have hc : (Coordinate.linear 0 1).xLeft < (Coordinate.linear 0 1).xRight := by simp [Coordinate.xLeft, Coordinate.xRight]
  obtain ⟨s, hs⟩ := (constructors hc gauss2_exact).2.2.1
  have e : epsilon * (1 - psiC) = 27 / 800000 := by unfold epsilon psiC xi; norm_num
  have e2 : psiC = 2 / 5 := by unfold psiC; norm_num
  refine ⟨s, .modal _ gauss2_exact hs, ?_, ?_⟩
  · rw [liYanHui_jump _ (1 : Fin 2) 0 (fun _ => 1) fun i x => constant_value _ _ _, if_pos ⟨0, by rw [e, e2]; norm_num⟩]
    rfl
  · rw [liYanHui_jump _ (1 : Fin 2) 0 (fun _ => 1 / 1000) fun i x => constant_value _ _ _, if_neg]
    rw [e, e2]
    norm_num

end

end MiniCFD.PyDetector
