import Verif.Lemmas.Ortho
import Mathlib.Tactic.NormNum
import Mathlib.Tactic.IntervalCases

/-!
# Orthonormalisation (C36)
-/

namespace MiniCFD.Ortho
open Finset

variable {Pt : Type*}

/-- The coefficients of a `Linear` basis are lower triangular (true of the constructors). -/
def Linear.Lower {N : Nat} (b : Linear N) : Prop := ∀ i j, i < j → b.coeff i j = 0

theorem init_lower (N : Nat) : (Linear.init N).Lower := by
  intro i j h
  simp [Linear.init, Nat.ne_of_lt h]

/-- The functions `φ_0 … φ_{N-1}` are linearly independent on the points of the rule. -/
def Independent (N : Nat) (φ : Pt → Nat → ℝ) (rule : Rule Pt) : Prop :=
  ∀ u : Row, (∃ l < N, u l ≠ 0) → ∃ pw ∈ rule, ∑ l ∈ range N, u l * φ pw.1 l ≠ 0

/-- Every weight is positive. -/
def Positive (rule : Rule Pt) : Prop := ∀ pw ∈ rule, 0 < pw.2

theorem posDef_of_independent {N : Nat} {φ : Pt → Nat → ℝ} {rule : Rule Pt} (hw : Positive rule)
    (hi : Independent N φ rule) : PosDef N (gram φ rule) := by
  intro u hu
  obtain ⟨pw, hpw, hne⟩ := hi u hu
  rw [form_gram, innerprod, integrate_eq]
  clear hi hu
  have hnn : ∀ q ∈ rule.map (fun pw : Pt × ℝ =>
      (∑ a ∈ range N, u a * φ pw.1 a) * (∑ b ∈ range N, u b * φ pw.1 b) * pw.2), 0 ≤ q := by
    intro q hq
    obtain ⟨r, hr, rfl⟩ := List.mem_map.1 hq
    exact mul_nonneg (mul_self_nonneg _) (hw r hr).le
  have hmem : (∑ a ∈ range N, u a * φ pw.1 a) * (∑ b ∈ range N, u b * φ pw.1 b) * pw.2 ∈
      rule.map (fun pw : Pt × ℝ =>
        (∑ a ∈ range N, u a * φ pw.1 a) * (∑ b ∈ range N, u b * φ pw.1 b) * pw.2) :=
    List.mem_map.2 ⟨pw, hpw, rfl⟩
  have hle := List.single_le_sum hnn _ hmem
  exact lt_of_lt_of_le (mul_pos (mul_self_pos.2 hne) (hw pw hpw)) hle

/-- After `Transform` with a lower triangular matrix the functions are the combinations of the old
ones with the rows of that matrix. -/
theorem transform_eval {N : Nat} (b : Linear N) (hb : b.Lower) (a : Mat) (t : Row) (i : Nat) :
    (b.transform a).eval t i = ∑ k ∈ range (i + 1), a i k * b.eval t k := by
  unfold Linear.eval Linear.transform
  have h1 : ∑ j ∈ range (i + 1), (if j ≤ i then ∑ k ∈ range (i + 1), a i k * b.coeff k j
      else b.coeff i j) * t j =
      ∑ j ∈ range (i + 1), ∑ k ∈ range (i + 1), a i k * b.coeff k j * t j := by
    refine sum_congr rfl fun j hj => ?_
    rw [if_pos (by simpa [Nat.lt_succ_iff] using hj), sum_mul]
  rw [h1, sum_comm]
  refine sum_congr rfl fun k hk => ?_
  have hk' : k + 1 ≤ i + 1 := by simpa using hk
  have h2 : ∑ j ∈ range (i + 1), a i k * b.coeff k j * t j =
      ∑ j ∈ range (k + 1), a i k * b.coeff k j * t j := by
    symm
    refine sum_subset (range_subset_range.2 hk') ?_
    intro j _ hj
    rw [hb k j (by simpa using hj)]; ring
  rw [h2, mul_sum]
  exact sum_congr rfl fun j _ => by ring

theorem transform_lower {N : Nat} (b : Linear N) (hb : b.Lower) (a : Mat) :
    (b.transform a).Lower := by
  intro i j h
  simp only [Linear.transform, if_neg (show ¬ j ≤ i by omega)]
  exact hb i j h

/-- The value through the whole matrix (`OrthoNormal`) is the value through its lower part
(`Linear`). -/
theorem fullEval_eq {N : Nat} (b : Linear N) (hb : b.Lower) (t : Row) (i : Nat) (hi : i < N) :
    fullEval b t i = b.eval t i := by
  unfold fullEval Linear.eval
  symm
  refine sum_subset (range_subset_range.2 hi) ?_
  intro j _ hj
  rw [hb i j (by simpa using hj), zero_mul]

/-- The functions after `OrthoNormalize`. -/
theorem ortho_eval {N : Nat} (b : Linear N) (hb : b.Lower) (taylor : Pt → Row) (rule : Rule Pt)
    (p : Pt) (i : Nat) :
    (orthoNormalize b taylor rule).eval (taylor p) i =
      ∑ k ∈ range (i + 1), orthoS (gram (fun p => b.eval (taylor p)) rule) (N - 1) i k *
        b.eval (taylor p) k :=
  transform_eval b hb _ _ _

/-- `OrthoNormalize` yields functions that are orthonormal for the quadrature inner product. -/
theorem orthonormal {N : Nat} (b : Linear N) (hb : b.Lower) (taylor : Pt → Row) (rule : Rule Pt)
    (hw : Positive rule) (hi : Independent N (fun p => b.eval (taylor p)) rule) (i j : Nat)
    (hiN : i < N) (hjN : j < N) :
    innerprod (fun p => (orthoNormalize b taylor rule).eval (taylor p) i)
      (fun p => (orthoNormalize b taylor rule).eval (taylor p) j) rule = if i = j then 1 else 0 := by
  have g := good_orthoS (gram_symm _ rule) (posDef_of_independent hw hi) (N - 1) (by omega)
  have hi' : i < N - 1 + 1 := by omega
  have hj' : j < N - 1 + 1 := by omega
  rw [← g.orth i hi' j hj', form_gram]
  simp only [ortho_eval b hb]
  congr 1
  · funext p
    rw [sum_below (show i + 1 ≤ N by omega) (g.tri i hi')]
  · funext p
    rw [sum_below (show j + 1 ≤ N by omega) (g.tri j hj')]

/-- Each new function is a combination of the old functions up to the same index, with a positive
last coefficient. -/
theorem triangular {N : Nat} (b : Linear N) (hb : b.Lower) (taylor : Pt → Row) (rule : Rule Pt)
    (hw : Positive rule) (hi : Independent N (fun p => b.eval (taylor p)) rule) (i : Nat)
    (hiN : i < N) :
    ∃ c : Row, 0 < c i ∧ ∀ p, (orthoNormalize b taylor rule).eval (taylor p) i =
      ∑ k ∈ range (i + 1), c k * b.eval (taylor p) k := by
  have g := good_orthoS (gram_symm _ rule) (posDef_of_independent hw hi) (N - 1) (by omega)
  exact ⟨_, g.diag i (by omega), fun p => ortho_eval b hb taylor rule p i⟩

/-- Each old function is a combination of the new functions up to the same index: for every `m` the
first `m` functions span the same space before and after. -/
theorem span_back {N : Nat} (b : Linear N) (hb : b.Lower) (taylor : Pt → Row) (rule : Rule Pt)
    (hw : Positive rule) (hi : Independent N (fun p => b.eval (taylor p)) rule) (i : Nat)
    (hiN : i < N) :
    ∃ d : Row, ∀ p, b.eval (taylor p) i =
      ∑ k ∈ range (i + 1), d k * (orthoNormalize b taylor rule).eval (taylor p) k := by
  induction i using Nat.strong_induction_on with
  | _ i ih =>
    obtain ⟨c, hc, hp⟩ := triangular b hb taylor rule hw hi i hiN
    have hd : ∀ k, ∃ d : Row, k < i → ∀ p, b.eval (taylor p) k =
        ∑ l ∈ range (k + 1), d l * (orthoNormalize b taylor rule).eval (taylor p) l := by
      intro k
      by_cases hk : k < i
      · obtain ⟨d, h⟩ := ih k hk (by omega)
        exact ⟨d, fun _ => h⟩
      · exact ⟨fun _ => 0, fun h => absurd h hk⟩
    choose d hd using hd
    refine ⟨fun l => if l = i then (c i)⁻¹ else
      -∑ k ∈ range i, if l ≤ k then (c i)⁻¹ * c k * d k l else 0, fun p => ?_⟩
    have h := hp p
    rw [sum_range_succ] at h
    have h1 : b.eval (taylor p) i = (c i)⁻¹ * ((orthoNormalize b taylor rule).eval (taylor p) i -
        ∑ k ∈ range i, c k * b.eval (taylor p) k) := by
      rw [h]; field_simp; ring
    rw [sum_range_succ]
    dsimp only
    rw [if_pos rfl]
    have h2 : ∑ k ∈ range i, c k * b.eval (taylor p) k = ∑ k ∈ range i, ∑ l ∈ range i,
        (if l ≤ k then c k * d k l else 0) *
          (orthoNormalize b taylor rule).eval (taylor p) l := by
      refine sum_congr rfl fun k hk => ?_
      have hk' : k < i := mem_range.1 hk
      rw [hd k hk' p, mul_sum]
      have : ∑ l ∈ range (k + 1), (if l ≤ k then c k * d k l else 0) *
          (orthoNormalize b taylor rule).eval (taylor p) l = ∑ l ∈ range i,
          (if l ≤ k then c k * d k l else 0) *
          (orthoNormalize b taylor rule).eval (taylor p) l := by
        refine sum_subset (range_subset_range.2 (by omega)) ?_
        intro l _ hl
        rw [if_neg (by simpa [Nat.lt_succ_iff] using hl), zero_mul]
      rw [← this]
      refine sum_congr rfl fun l hl => ?_
      rw [if_pos (by simpa [Nat.lt_succ_iff] using hl)]; ring
    rw [h1, h2, sum_comm]
    have h3 : ∀ l ∈ range i, (if l = i then (c i)⁻¹ else
        -∑ k ∈ range i, if l ≤ k then (c i)⁻¹ * c k * d k l else 0) *
          (orthoNormalize b taylor rule).eval (taylor p) l =
        -((c i)⁻¹ * ∑ k ∈ range i, (if l ≤ k then c k * d k l else 0) *
          (orthoNormalize b taylor rule).eval (taylor p) l) := by
      intro l hl
      rw [if_neg (Nat.ne_of_lt (mem_range.1 hl)), neg_mul, sum_mul, mul_sum]
      congr 1
      refine sum_congr rfl fun k _ => ?_
      split_ifs <;> ring
    rw [sum_congr rfl h3, sum_neg_distrib, ← mul_sum]
    ring

/-- `Measure()` of a cell basis is the sum of the weights, that is, the measure of the cell as the
rule sees it. -/
theorem measure_eq {N : Nat} (hN : 0 < N) (taylor : Pt → Row) (ht : ∀ p, taylor p 0 = 1)
    (rule : Rule Pt) (hw : Positive rule) (hne : rule ≠ []) :
    measure (orthoNormalize (Linear.init N) taylor rule) = (rule.map Prod.snd).sum := by
  have hA : gram (fun p => (Linear.init N).eval (taylor p)) rule 0 0 = (rule.map Prod.snd).sum := by
    simp [gram, integrate_eq, Linear.eval, Linear.init, ht]
  have hpos : 0 < (rule.map Prod.snd).sum := by
    refine List.sum_pos _ ?_ (by simpa using hne)
    intro w hw'
    obtain ⟨q, hq, rfl⟩ := List.mem_map.1 hw'
    exact hw q hq
  have hS : orthoS (gram (fun p => (Linear.init N).eval (taylor p)) rule) (N - 1) 0 0 =
      1 / Real.sqrt (rule.map Prod.snd).sum := by
    rw [orthoS_row (Nat.zero_le _), orthoS, setRow_self, hA]
    simp
  simp only [measure, orthoNormalize, Linear.transform, le_refl, if_true, zero_add, sum_range_one,
    hS]
  simp only [Linear.init, if_true]
  rw [mul_one, ← pow_two, div_pow, Real.sq_sqrt hpos.le]
  field_simp

theorem inner_fixed {A S : Mat} {i : Nat} (hS : ∀ j < i, S j = e j) (hA : ∀ j < i, A j i = 0)
    (m : Nat) (hm : m ≤ i) : (List.range m).foldl (subtract A S i) (e i) = e i := by
  induction m with
  | zero => rfl
  | succ m ih =>
    rw [List.range_succ, List.foldl_append, ih (by omega)]
    simp only [List.foldl_cons, List.foldl_nil, subtract, sumLoop_eq]
    have h0 : ∑ k ∈ range (m + 1), S m k * A k i = 0 := by
      refine sum_eq_zero fun k hk => ?_
      rw [hA k (by simp at hk; omega), mul_zero]
    funext l
    rw [h0]
    split_ifs <;> ring

/-- Orthonormalising an orthonormal basis changes nothing. -/
theorem idempotent {N : Nat} (b : Linear N) (hb : b.Lower) (taylor : Pt → Row) (rule : Rule Pt)
    (ho : ∀ i < N, ∀ j < N, innerprod (fun p => b.eval (taylor p) i)
      (fun p => b.eval (taylor p) j) rule = if i = j then 1 else 0) (i : Nat) (hi : i < N) (p : Pt) :
    (orthoNormalize b taylor rule).eval (taylor p) i = b.eval (taylor p) i := by
  set A := gram (fun p => b.eval (taylor p)) rule with hAdef
  have hA : ∀ i < N, ∀ j < N, A i j = if i = j then 1 else 0 := ho
  have key : ∀ m < N, orthoS A m m = e m := by
    intro m
    induction m using Nat.strong_induction_on with
    | _ m ih =>
      intro hm
      cases m with
      | zero =>
        rw [orthoS, setRow_self, hA 0 hm 0 hm]
        funext l
        simp [e]
      | succ m =>
        rw [orthoS, setRow_self]
        have hrow : ∀ j < m + 1, orthoS A m j = e j := by
          intro j hj
          rw [orthoS_row (by omega)]
          exact ih j hj (by omega)
        have hin := inner_fixed (A := A) hrow (fun j hj => by
          rw [hA j (by omega) (m + 1) hm, if_neg (by omega)]) (m + 1) (le_refl _)
        have hn : normSq A (m + 1) (e (m + 1)) = 1 := by
          rw [normSq_eq (gram_symm _ rule), form_unit _ _ _ _ (Nat.lt_succ_self _),
            sum_eq_single (m + 1)]
          · rw [← hAdef, hA _ hm _ hm]; simp [e]
          · intro c _ hc; simp [e, hc]
          · intro h; exact absurd (mem_range.2 (Nat.lt_succ_self _)) h
        funext l
        have : newRow A (orthoS A m) (m + 1) l =
            ((List.range (m + 1)).foldl (subtract A (orthoS A m) (m + 1)) (e (m + 1))) l /
              Real.sqrt (normSq A (m + 1)
                ((List.range (m + 1)).foldl (subtract A (orthoS A m) (m + 1)) (e (m + 1)))) := rfl
        rw [this, hin, hn, Real.sqrt_one, div_one]
  rw [ortho_eval b hb, ← hAdef, orthoS_row (show i ≤ N - 1 by omega), key i hi,
    sum_eq_single i]
  · simp [e]
  · intro c _ hc; simp [e, hc]
  · intro h; exact absurd (mem_range.2 (Nat.lt_succ_self _)) h

/-- The squared norm is the inner product with itself; it is zero only where the function vanishes
on all points. -/
theorem norm_zero_iff (f : Pt → ℝ) (rule : Rule Pt) (hw : Positive rule) :
    norm f rule = 0 ↔ ∀ pw ∈ rule, f pw.1 = 0 := by
  unfold norm innerprod
  have hnn : ∀ q ∈ rule.map (fun pw : Pt × ℝ => f pw.1 * f pw.1 * pw.2), 0 ≤ q := by
    intro q hq
    obtain ⟨r, hr, rfl⟩ := List.mem_map.1 hq
    exact mul_nonneg (mul_self_nonneg _) (hw r hr).le
  rw [Real.sqrt_eq_zero (by rw [integrate_eq]; exact List.sum_nonneg hnn), integrate_eq]
  constructor
  · intro h pw hpw
    by_contra hne
    have hle := List.single_le_sum hnn _ (List.mem_map.2 ⟨pw, hpw, rfl⟩)
    have := mul_pos (mul_self_pos.2 hne) (hw pw hpw)
    linarith
  · intro h
    refine List.sum_eq_zero ?_
    intro q hq
    obtain ⟨r, hr, rfl⟩ := List.mem_map.1 hq
    rw [h r hr]; ring

/-! ### Example: the functions `1, x` on the two-point rule of `[-1, 1]` shifted by one -/

/-- Two points with unequal weights. -/
def sampleRule : Rule ℝ := [(0, 1), (2, 3)]

/-- The Taylor values `1, x`. -/
noncomputable def sampleTaylor (x : ℝ) : Row := fun j => x ^ j

theorem sample_positive : Positive sampleRule := by
  intro pw h
  simp [sampleRule] at h
  rcases h with rfl | rfl <;> norm_num

theorem sample_independent :
    Independent 2 (fun p => (Linear.init 2).eval (sampleTaylor p)) sampleRule := by
  intro u hu
  have hval : ∀ p : ℝ, ∑ l ∈ range 2, u l * (Linear.init 2).eval (sampleTaylor p) l =
      u 0 + u 1 * p := by
    intro p
    simp [sum_range_succ, Linear.eval, Linear.init, sampleTaylor]
  by_cases h0 : u 0 = 0
  · refine ⟨(2, 3), by simp [sampleRule], ?_⟩
    rw [hval, h0]
    obtain ⟨l, hl, hne⟩ := hu
    interval_cases l
    · exact absurd h0 hne
    · simpa using hne
  · exact ⟨(0, 1), by simp [sampleRule], by rw [hval]; simpa using h0⟩

example : innerprod
    (fun p => (orthoNormalize (Linear.init 2) sampleTaylor sampleRule).eval (sampleTaylor p) 0)
    (fun p => (orthoNormalize (Linear.init 2) sampleTaylor sampleRule).eval (sampleTaylor p) 1)
    sampleRule = 0 :=
  orthonormal (Linear.init 2) (init_lower 2) sampleTaylor sampleRule sample_positive
    sample_independent 0 1 (by norm_num) (by norm_num)

example : measure (orthoNormalize (Linear.init 2) sampleTaylor sampleRule) = 4 := by
  rw [measure_eq (by norm_num) sampleTaylor (by intro p; simp [sampleTaylor]) sampleRule
    sample_positive (by simp [sampleRule])]
  simp [sampleRule]; norm_num

end MiniCFD.Ortho
