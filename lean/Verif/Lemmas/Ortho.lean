import Verif.Model.Ortho
import Mathlib.Algebra.BigOperators.Ring.Finset
import Mathlib.Algebra.Order.BigOperators.Ring.Finset
import Mathlib.Tactic.LinearCombination
import Mathlib.Tactic.Ring
import Mathlib.Tactic.Linarith
import Mathlib.Tactic.FieldSimp
import Mathlib.Tactic.Positivity

/-! Gram-Schmidt on coefficient vectors. -/

namespace MiniCFD.Ortho

open Finset

theorem sumLoop_eq (n : Nat) (f : Nat → ℝ) : sumLoop n f = ∑ k ∈ range n, f k := by
  unfold sumLoop
  induction n with
  | zero => simp
  | succ n ih => rw [List.range_succ, List.foldl_append, ih, sum_range_succ]; rfl

/-- The bilinear form of the matrix `A` on vectors of length `n`. -/
def form (n : Nat) (A : Mat) (u v : Row) : ℝ := ∑ a ∈ range n, ∑ b ∈ range n, u a * A a b * v b

theorem form_add_right (n : Nat) (A : Mat) (u v w : Row) :
    form n A u (fun l => v l + w l) = form n A u v + form n A u w := by
  simp only [form, mul_add, sum_add_distrib]

theorem form_smul_right (n : Nat) (A : Mat) (u v : Row) (c : ℝ) :
    form n A u (fun l => c * v l) = c * form n A u v := by
  simp only [form, mul_sum]
  exact sum_congr rfl fun a _ => sum_congr rfl fun b _ => by ring

theorem form_comm (n : Nat) {A : Mat} (hA : ∀ i j, A i j = A j i) (u v : Row) :
    form n A u v = form n A v u := by
  unfold form
  rw [sum_comm]
  exact sum_congr rfl fun a _ => sum_congr rfl fun b _ => by rw [hA]; ring

theorem form_sub_right (n : Nat) (A : Mat) (u v w : Row) (c : ℝ) :
    form n A u (fun l => v l - c * w l) = form n A u v - c * form n A u w := by
  have : (fun l => v l - c * w l) = fun l => v l + (-c) * w l := by funext l; ring
  rw [this, form_add_right n A u v, form_smul_right]; ring

/-- A vector supported below `m`. -/
def Below (m : Nat) (u : Row) : Prop := ∀ l, m ≤ l → u l = 0

/-- The unit vector. -/
def e (i : Nat) : Row := fun l => if l = i then 1 else 0

theorem form_unit (n : Nat) (A : Mat) (u : Row) (i : Nat) (hi : i < n) :
    form n A u (e i) = ∑ a ∈ range n, u a * A a i := by
  unfold form e
  refine sum_congr rfl fun a _ => ?_
  rw [sum_eq_single i]
  · simp
  · intro b _ hb; simp [hb]
  · intro h; exact absurd (mem_range.2 hi) h

theorem sum_below {m n : Nat} (hmn : m ≤ n) {u : Row} (hu : Below m u) (f : Nat → ℝ) :
    ∑ a ∈ range n, u a * f a = ∑ a ∈ range m, u a * f a := by
  symm
  refine sum_subset (range_subset_range.2 hmn) ?_
  intro a _ h
  rw [hu a (by simpa using h), zero_mul]

theorem form_below {m n : Nat} (hmn : m ≤ n) {A : Mat} {u v : Row} (hu : Below m u)
    (hv : Below m v) : form n A u v = form m A u v := by
  unfold form
  have h1 : ∀ a, ∑ b ∈ range n, u a * A a b * v b = u a * ∑ b ∈ range m, A a b * v b := by
    intro a
    have := sum_below hmn hv (fun b => u a * A a b)
    rw [mul_sum]
    calc _ = ∑ b ∈ range n, v b * (u a * A a b) := sum_congr rfl fun b _ => by ring
      _ = _ := this
      _ = _ := sum_congr rfl fun b _ => by ring
  rw [sum_congr rfl (fun a _ => h1 a), sum_below hmn hu]
  exact sum_congr rfl fun a _ => by rw [mul_sum]; exact sum_congr rfl fun b _ => by ring

theorem normSq_eq {A : Mat} (hA : ∀ i j, A i j = A j i) (i : Nat) (r : Row) :
    normSq A i r = form (i + 1) A r r := by
  unfold normSq
  rw [sumLoop_eq]
  have key : ∀ n, ∑ j ∈ range n, r j * (r j * A j j + sumLoop j fun k => 2 * r k * A k j) =
      form n A r r := by
    intro n
    induction n with
    | zero => simp [form]
    | succ n ih =>
      rw [sum_range_succ, ih, sumLoop_eq]
      unfold form
      simp only [sum_range_succ, sum_add_distrib]
      have h1 : ∑ x ∈ range n, r n * A n x * r x = ∑ x ∈ range n, r x * A x n * r n :=
        sum_congr rfl fun x _ => by rw [hA n x]; ring
      have h2 : r n * ∑ k ∈ range n, 2 * r k * A k n = 2 * ∑ x ∈ range n, r x * A x n * r n := by
        rw [mul_sum, mul_sum]; exact sum_congr rfl fun x _ => by ring
      rw [h1]
      linear_combination h2
  exact key (i + 1)

/-- The statement `row -= temp * S.row(j)` on the whole row. -/
theorem subtract_eq {n : Nat} {A S : Mat} {i j : Nat} (hi : i < n) (hj : j < n)
    (hS : Below (j + 1) (S j)) (r : Row) :
    subtract A S i r j = fun l => r l - form n A (S j) (e i) * S j l := by
  funext l
  unfold subtract
  rw [form_unit n A _ i hi, sum_below (show j + 1 ≤ n by omega) hS, sumLoop_eq]
  split_ifs with h
  · rfl
  · rw [hS l (by omega)]; ring

/-- The rows below `i` are orthonormal and lower triangular. -/
structure Good (n : Nat) (A S : Mat) (i : Nat) : Prop where
  tri : ∀ j < i, Below (j + 1) (S j)
  orth : ∀ j < i, ∀ k < i, form n A (S j) (S k) = if j = k then 1 else 0
  diag : ∀ j < i, 0 < S j j

/-- The bilinear form is positive definite. -/
def PosDef (n : Nat) (A : Mat) : Prop := ∀ u : Row, (∃ l < n, u l ≠ 0) → 0 < form n A u u

/-- The row after the inner loop has run for `j < m`. -/
theorem inner_inv {n : Nat} {A S : Mat} {i : Nat} (hi : i < n)
    (g : Good n A S i) (m : Nat) (hm : m ≤ i) :
    let r := (List.range m).foldl (subtract A S i) (e i)
    (∀ l, i ≤ l → r l = e i l) ∧
    (∀ k < m, form n A (S k) r = 0) ∧
    (∀ k < i, m ≤ k → form n A (S k) r = form n A (S k) (e i)) := by
  induction m with
  | zero => exact ⟨fun _ _ => rfl, fun k hk => absurd hk (Nat.not_lt_zero k), fun _ _ _ => rfl⟩
  | succ m ih =>
    obtain ⟨h1, h2, h3⟩ := ih (by omega)
    rw [List.range_succ, List.foldl_append]
    simp only [List.foldl_cons, List.foldl_nil]
    set r := (List.range m).foldl (subtract A S i) (e i) with hr
    have hs := subtract_eq (A := A) hi (show m < n by omega) (g.tri m (by omega)) r
    rw [hs]
    refine ⟨fun l hl => ?_, fun k hk => ?_, fun k hk hmk => ?_⟩
    · dsimp only
      rw [h1 l hl, g.tri m (by omega) l (by omega)]; ring
    · rw [form_sub_right, g.orth k (by omega) m (by omega)]
      by_cases hkm : k = m
      · subst hkm
        rw [if_pos rfl, h3 k (by omega) (le_refl k)]; ring
      · rw [if_neg hkm, h2 k (by omega)]; ring
    · rw [form_sub_right, g.orth k hk m (by omega), if_neg (by omega), h3 k hk (by omega)]; ring

theorem setRow_self (S : Mat) (i : Nat) (r : Row) : setRow S i r i = r := by simp [setRow]

theorem setRow_ne (S : Mat) {i k : Nat} (r : Row) (h : k ≠ i) : setRow S i r k = S k := by
  simp [setRow, h]

theorem form_smul_left (n : Nat) (A : Mat) (u v : Row) (c : ℝ) :
    form n A (fun l => c * u l) v = c * form n A u v := by
  simp only [form, mul_sum]
  exact sum_congr rfl fun a _ => sum_congr rfl fun b _ => by ring

theorem good_step {n : Nat} {A S : Mat} {i : Nat} (hA : ∀ i j, A i j = A j i) (hp : PosDef n A)
    (hi : i < n) (g : Good n A S i) : Good n A (setRow S i (newRow A S i)) (i + 1) := by
  obtain ⟨h1, h2, _⟩ := inner_inv hi g i (le_refl i)
  set r := (List.range i).foldl (subtract A S i) (e i) with hr
  have hb : Below (i + 1) r := by
    intro l hl
    rw [h1 l (by omega)]
    simp only [e, if_neg (show l ≠ i by omega)]
  have hri : r i = 1 := by rw [h1 i (le_refl i)]; simp [e]
  have hpos : 0 < form n A r r := hp r ⟨i, hi, by rw [hri]; norm_num⟩
  have hnsq : normSq A i r = form n A r r := by
    rw [normSq_eq hA, form_below (show i + 1 ≤ n by omega) hb hb]
  have hsq : 0 < Real.sqrt (form n A r r) := Real.sqrt_pos.2 hpos
  have hnew : newRow A S i = fun l => (Real.sqrt (form n A r r))⁻¹ * r l := by
    funext l
    have : newRow A S i l = r l / Real.sqrt (normSq A i r) := rfl
    rw [this, hnsq, div_eq_inv_mul]
  have hmix : ∀ k < i, form n A (S k) (newRow A S i) = 0 := by
    intro k hk
    rw [hnew, form_smul_right, h2 k hk, mul_zero]
  constructor
  · intro j hj
    by_cases hji : j = i
    · subst hji
      rw [setRow_self, hnew]
      intro l hl
      dsimp only
      rw [hb l hl, mul_zero]
    · rw [setRow_ne _ _ hji]; exact g.tri j (by omega)
  · intro j hj k hk
    by_cases hji : j = i
    · by_cases hki : k = i
      · subst hji; subst hki
        rw [if_pos rfl, setRow_self, hnew, form_smul_right, form_smul_left, ← mul_assoc, ← mul_inv,
          Real.mul_self_sqrt hpos.le, inv_mul_cancel₀ hpos.ne']
      · subst hji
        rw [setRow_self, setRow_ne _ _ hki, if_neg (Ne.symm hki), form_comm n hA,
          hmix k (by omega)]
    · by_cases hki : k = i
      · subst hki
        rw [setRow_self, setRow_ne _ _ hji, if_neg hji, hmix j (by omega)]
      · rw [setRow_ne _ _ hji, setRow_ne _ _ hki]
        exact g.orth j (by omega) k (by omega)
  · intro j hj
    by_cases hji : j = i
    · subst hji
      rw [setRow_self, hnew]
      dsimp only
      rw [hri, mul_one]
      exact inv_pos.2 hsq
    · rw [setRow_ne _ _ hji]; exact g.diag j (by omega)

theorem good_orthoS {n : Nat} {A : Mat} (hA : ∀ i j, A i j = A j i) (hp : PosDef n A) (m : Nat)
    (hm : m < n) : Good n A (orthoS A m) (m + 1) := by
  induction m with
  | zero =>
    have h00 : 0 < A 0 0 := by
      have h := hp (e 0) ⟨0, hm, by simp [e]⟩
      rw [form_unit n A _ 0 hm, sum_eq_single 0] at h
      · simpa [e] using h
      · intro b _ hb; simp [e, hb]
      · intro h'; exact absurd (mem_range.2 hm) h'
    have hsq : 0 < Real.sqrt (A 0 0) := Real.sqrt_pos.2 h00
    have hrow : orthoS A 0 0 = fun l => (Real.sqrt (A 0 0))⁻¹ * e 0 l := by
      rw [orthoS, setRow_self]
      funext l
      by_cases h : l = 0 <;> simp [e, h]
    constructor
    · intro j hj l hl
      have : j = 0 := by omega
      subst this
      rw [hrow]
      simp [e, show l ≠ 0 by omega]
    · intro j hj k hk
      have : j = 0 := by omega
      subst this
      have : k = 0 := by omega
      subst this
      rw [if_pos rfl, hrow, form_smul_right, form_smul_left, form_unit n A _ 0 hm,
        sum_eq_single 0, ← mul_assoc, ← mul_inv, Real.mul_self_sqrt h00.le]
      · simp [e]; field_simp
      · intro b _ hb; simp [e, hb]
      · intro h'; exact absurd (mem_range.2 hm) h'
    · intro j hj
      have : j = 0 := by omega
      subst this
      rw [hrow]
      simp [e]; exact h00
  | succ m ih => exact good_step hA hp hm (ih (by omega))

variable {Pt : Type*}

theorem integrate_eq (f : Pt → ℝ) (rule : Rule Pt) :
    integrate f rule = (rule.map fun pw => f pw.1 * pw.2).sum := by
  unfold integrate
  rw [← List.foldl_map (f := fun pw : Pt × ℝ => f pw.1 * pw.2) (g := fun s v => s + v)]
  rw [List.sum_eq_foldl]

theorem integrate_add (f g : Pt → ℝ) (rule : Rule Pt) :
    integrate (fun p => f p + g p) rule = integrate f rule + integrate g rule := by
  simp only [integrate_eq]
  induction rule with
  | nil => simp
  | cons a l ih => simp only [List.map_cons, List.sum_cons, ih]; ring

theorem integrate_smul (c : ℝ) (f : Pt → ℝ) (rule : Rule Pt) :
    integrate (fun p => c * f p) rule = c * integrate f rule := by
  simp only [integrate_eq]
  induction rule with
  | nil => simp
  | cons a l ih => simp only [List.map_cons, List.sum_cons, ih]; ring

theorem integrate_sum {ι : Type*} (s : Finset ι) (f : ι → Pt → ℝ) (rule : Rule Pt) :
    integrate (fun p => ∑ i ∈ s, f i p) rule = ∑ i ∈ s, integrate (f i) rule := by
  classical
  induction s using Finset.induction_on with
  | empty => simp [integrate_eq]
  | insert a s h ih => simp only [sum_insert h, integrate_add, ih]

/-- The form of the Gram matrix is the inner product of the combinations. -/
theorem form_gram (n : Nat) (basis : Pt → Nat → ℝ) (rule : Rule Pt) (u v : Row) :
    form n (gram basis rule) u v =
      innerprod (fun p => ∑ a ∈ range n, u a * basis p a) (fun p => ∑ b ∈ range n, v b * basis p b)
        rule := by
  unfold innerprod form gram
  have h : (fun p => (∑ a ∈ range n, u a * basis p a) * ∑ b ∈ range n, v b * basis p b) =
      fun p => ∑ a ∈ range n, ∑ b ∈ range n, (u a * v b) * (basis p a * basis p b) := by
    funext p
    rw [sum_mul_sum]
    exact sum_congr rfl fun a _ => sum_congr rfl fun b _ => by ring
  rw [h, integrate_sum]
  refine sum_congr rfl fun a _ => ?_
  rw [integrate_sum]
  refine sum_congr rfl fun b _ => ?_
  rw [integrate_smul]; ring

theorem gram_symm (basis : Pt → Nat → ℝ) (rule : Rule Pt) (i j : Nat) :
    gram basis rule i j = gram basis rule j i := by
  unfold gram
  congr 1
  funext p; ring

theorem orthoS_row {A : Mat} {m k : Nat} (h : k ≤ m) : orthoS A m k = orthoS A k k := by
  induction m with
  | zero => have : k = 0 := by omega
            subst this; rfl
  | succ m ih =>
    by_cases hk : k = m + 1
    · subst hk; rfl
    · rw [orthoS, setRow_ne _ _ hk, ih (by omega)]

end MiniCFD.Ortho
