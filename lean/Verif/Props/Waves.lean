import Verif.Lemmas.Waves
import Mathlib.LinearAlgebra.Matrix.NonsingularInverse
import Mathlib.LinearAlgebra.Matrix.Notation
import Mathlib.Tactic.FinCases
import Mathlib.Tactic.NormNum

/-!
# C144: the reference solution of linear systems
-/

namespace MiniCFD.Waves

open Matrix MiniCFD.Spec.Waves MiniCFD.Spec.Simple

variable {K : Nat}

/-- What the front number `i` carries, in the code. -/
noncomputable def carries (rows cols : Matrix (Fin K) (Fin K) ℝ) (left right : Fin K → ℝ) (i : Fin K) : Fin K → ℝ :=
  (rows i ⬝ᵥ (right - left)) • fun j => cols j i

theorem exact_sum (rows cols : Matrix (Fin K) (Fin K) ℝ) (vals : Fin K → ℝ) (x0 : ℝ) (left right : Fin K → ℝ) (x t : ℝ) :
    exact rows cols vals x0 left right x t =
      ∑ i, (rows i ⬝ᵥ if x - x0 > vals i * t then right else left) • fun j => cols j i := by
  unfold exact
  have h : ∀ (l : List (Fin K)) (f : Fin K → Fin K → ℝ) (v : Fin K → ℝ), l.foldl (fun v i => v + f i) v = v + (l.map f).sum := by
    intro l f
    induction l with
    | nil => simp
    | cons a l ih =>
      intro v
      rw [List.foldl_cons, ih, List.map_cons, List.sum_cons, add_assoc]
  rw [h (List.finRange K) (fun i => (rows i ⬝ᵥ if x - x0 > vals i * t then right else left) • fun j => cols j i) 0, zero_add]
  exact (Fin.sum_univ_def _).symm

theorem splits (rows cols : Matrix (Fin K) (Fin K) ℝ) (h : cols * rows = 1) (v : Fin K → ℝ) :
    ∑ i, (rows i ⬝ᵥ v) • (fun j => cols j i) = v := by
  have : cols *ᵥ (rows *ᵥ v) = v := by rw [mulVec_mulVec, h, one_mulVec]
  conv_rhs => rw [← this]
  funext j
  rw [Finset.sum_apply]
  show _ = ∑ i, cols j i * (rows i ⬝ᵥ v)
  exact Finset.sum_congr rfl fun i _ => by rw [Pi.smul_apply, smul_eq_mul, mul_comm]

/-- The reference is a fan of fronts from `x0`. -/
theorem exact_fan {rows cols : Matrix (Fin K) (Fin K) ℝ} (h : cols * rows = 1) (vals : Fin K → ℝ) (x0 : ℝ)
    (left right : Fin K → ℝ) :
    exact rows cols vals x0 left right = fan vals (carries rows cols left right) left x0 := by
  funext x t
  rw [exact_sum]
  unfold fan
  calc _ = ∑ i, (((rows i ⬝ᵥ left) • fun j => cols j i) +
        front (x - x0 - vals i * t) • carries rows cols left right i) := by
        refine Finset.sum_congr rfl fun i _ => ?_
        unfold carries front
        by_cases hx : x - x0 > vals i * t
        · rw [if_pos hx, if_pos (by linarith), one_smul, dotProduct_sub, sub_smul, add_sub_cancel]
        · rw [if_neg hx, if_neg (by linarith), zero_smul, add_zero]
    _ = _ := by rw [Finset.sum_add_distrib, splits rows cols h left]

/-- **C144.** The reference starts as the initial condition, whatever decomposition is found. -/
theorem exact_start {A rows cols : Matrix (Fin K) (Fin K) ℝ} {vals : Fin K → ℝ} (h : Decomposed A rows cols vals)
    (x0 : ℝ) (left right : Fin K → ℝ) (x : ℝ) :
    exact rows cols vals x0 left right x 0 = initial x0 left right x := by
  rw [exact_sum]
  unfold initial
  have e : ∀ i, (x - x0 > vals i * 0) = (x > x0) := fun i => by rw [mul_zero, gt_iff_lt, sub_pos, gt_iff_lt]
  simp only [e]
  exact splits rows cols h.left_inv _

/-- **C144.** With columns of eigenvectors, and rows of the inverse, as `Multiple::GetFluxUpwind` takes them, the
reference would be a solution for every diagonalisable matrix: here `rows` and `cols` have changed places. -/
theorem exact_repaired {A rows cols : Matrix (Fin K) (Fin K) ℝ} {vals : Fin K → ℝ} (h : Decomposed A rows cols vals)
    (x0 : ℝ) (left right : Fin K → ℝ) : Conserved A (exact cols rows vals x0 left right) := by
  rw [exact_fan (mul_eq_one_comm.1 h.left_inv), fan_conserved]
  intro a b s t _ _ r
  refine Finset.sum_eq_zero fun i _ => ?_
  have e : (A *ᵥ carries cols rows left right i) = vals i • carries cols rows left right i := by
    unfold carries
    rw [mulVec_smul, h.eigen, smul_comm]
  rw [e, Pi.smul_apply, smul_eq_mul, sub_self, mul_zero]

/-- **C144.** As it stands it is a solution if the matrix and that of its eigenvectors are both symmetric. Missing:
other decompositions, for which it is wrong (`demo_wrong`). -/
theorem exact_solution_partial {A rows cols : Matrix (Fin K) (Fin K) ℝ} {vals : Fin K → ℝ}
    (h : Decomposed A rows cols vals) (hA : A.transpose = A) (hR : rows.transpose = rows) (x0 : ℝ)
    (left right : Fin K → ℝ) : Conserved A (exact rows cols vals x0 left right) := by
  rw [exact_fan h.left_inv, fan_conserved]
  intro a b s t _ _ r
  refine Finset.sum_eq_zero fun i _ => ?_
  have hAR : A * rows = rows * diagonal vals := by
    ext j k
    have := congrFun (h.eigen k) j
    rw [mul_diagonal, mul_apply]
    rw [Pi.smul_apply, smul_eq_mul, mul_comm] at this
    exact this
  have hRA : rows * A = diagonal vals * rows := by
    have := congrArg transpose hAR
    rwa [transpose_mul, transpose_mul, hA, hR, diagonal_transpose] at this
  have hinv := mul_eq_one_comm.1 h.left_inv
  have hAC : A * cols = cols * diagonal vals := by
    calc A * cols = cols * rows * A * cols := by rw [h.left_inv, one_mul]
      _ = cols * (rows * A) * cols := by rw [mul_assoc cols]
      _ = cols * diagonal vals * (rows * cols) := by rw [hRA, ← mul_assoc, mul_assoc _ rows cols]
      _ = cols * diagonal vals := by rw [hinv, mul_one]
  have e : A *ᵥ (fun j => cols j i) = vals i • fun j => cols j i := by
    funext j
    have := congrFun (congrFun hAC j) i
    rw [mul_diagonal, mul_apply] at this
    rw [Pi.smul_apply, smul_eq_mul, mul_comm]
    exact this
  have e' : (A *ᵥ carries rows cols left right i) = vals i • carries rows cols left right i := by
    unfold carries
    rw [mulVec_smul, e, smul_comm]
  rw [e', Pi.smul_apply, smul_eq_mul, sub_self, mul_zero]

/-! ### The demo -/

theorem demo_symmetric : demo.transpose = demo := by
  ext i j
  fin_cases i <;> fin_cases j <;> rfl

/-- What a decomposition of the matrix of the demo looks like. -/
theorem demo_decomposed {rows cols : Matrix (Fin 2) (Fin 2) ℝ} {vals : Fin 2 → ℝ} (h : Decomposed demo rows cols vals) :
    rows 0 0 * rows 1 1 - rows 0 1 * rows 1 0 ≠ 0 ∧
    ((vals 0 = 8 ∧ vals 1 = 4 ∧ rows 1 0 = -rows 0 0 ∧ rows 1 1 = rows 0 1) ∨
      (vals 0 = 4 ∧ vals 1 = 8 ∧ rows 1 0 = rows 0 0 ∧ rows 1 1 = -rows 0 1)) := by
  have hd : rows 0 0 * rows 1 1 - rows 0 1 * rows 1 0 ≠ 0 := by
    intro h0
    have h1 : (cols * rows).det = 1 := by rw [h.left_inv, det_one]
    rw [det_mul, det_fin_two rows, h0, mul_zero] at h1
    exact zero_ne_one h1
  refine ⟨hd, ?_⟩
  have e : ∀ k, 6 * rows 0 k + -2 * rows 1 k = vals k * rows 0 k ∧ -2 * rows 0 k + 6 * rows 1 k = vals k * rows 1 k := by
    intro k
    have h0 := congrFun (h.eigen k) 0
    have h1 := congrFun (h.eigen k) 1
    simp only [mulVec, dotProduct, Fin.sum_univ_two, Pi.smul_apply, smul_eq_mul, demo] at h0 h1
    simp at h0 h1
    exact ⟨by linarith, by linarith⟩
  have p : ∀ k, (rows 0 k + rows 1 k) * (4 - vals k) = 0 ∧ (rows 0 k - rows 1 k) * (8 - vals k) = 0 := by
    intro k
    obtain ⟨h0, h1⟩ := e k
    exact ⟨by linear_combination h0 + h1, by linear_combination h0 - h1⟩
  have q : ∀ k, (vals k = 4 ∧ rows 1 k = rows 0 k) ∨ (vals k = 8 ∧ rows 1 k = -rows 0 k) ∨ (rows 0 k = 0 ∧ rows 1 k = 0) := by
    intro k
    obtain ⟨p0, p1⟩ := p k
    rcases mul_eq_zero.1 p0 with a | a <;> rcases mul_eq_zero.1 p1 with b | b
    · exact .inr (.inr ⟨by linarith, by linarith⟩)
    · exact .inr (.inl ⟨by linarith, by linarith⟩)
    · exact .inl ⟨by linarith, by linarith⟩
    · exfalso
      linarith
  rcases q 0 with ⟨a, b⟩ | ⟨a, b⟩ | ⟨a, b⟩ <;> rcases q 1 with ⟨a', b'⟩ | ⟨a', b'⟩ | ⟨a', b'⟩
  · exact absurd (by rw [b, b']; ring) hd
  · exact .inr ⟨a, a', b, b'⟩
  · exact absurd (by rw [a', b']; ring) hd
  · exact .inl ⟨a, a', b, b'⟩
  · exact absurd (by rw [b, b']; ring) hd
  · exact absurd (by rw [a', b']; ring) hd
  · exact absurd (by rw [a, b]; ring) hd
  · exact absurd (by rw [a, b]; ring) hd
  · exact absurd (by rw [a, b]; ring) hd

/-- The fast front alone crosses the interval from five to seven in the first unit of time. -/
theorem stay_fast : stay 8 5 7 0 1 = 1 / 4 ∧ stay 4 5 7 0 1 = 0 := by
  rw [stay_eq (by norm_num), stay_eq (by norm_num)]
  norm_num [max_eq_left, max_eq_right]

/-- Both fronts cross the interval from one to three. -/
theorem stay_slow : stay 8 1 3 0 1 = 1 / 4 ∧ stay 4 1 3 0 1 = 1 / 2 := by
  rw [stay_eq (by norm_num), stay_eq (by norm_num)]
  norm_num [max_eq_left, max_eq_right]

/-- If the reference is a solution, the fast front carries the eigenvector of eight and the slow front that of four. -/
theorem fronts {rows cols : Matrix (Fin 2) (Fin 2) ℝ} {vals : Fin 2 → ℝ} (h : Decomposed demo rows cols vals)
    (x0 : ℝ) {i j : Fin 2} (hij : i ≠ j) (hi : vals i = 8) (hj : vals j = 4) {left right : Fin 2 → ℝ}
    (hc : Conserved demo (exact rows cols vals x0 left right)) :
    carries rows cols left right i 0 + carries rows cols left right i 1 = 0 ∧
      carries rows cols left right j 0 - carries rows cols left right j 1 = 0 := by
  rw [exact_fan h.left_inv, fan_conserved] at hc
  have e := hc (x0 + 5) (x0 + 7) 0 1 (by linarith) zero_le_one 0
  have hs : ∀ f : Fin 2 → ℝ, ∑ k, f k = f i + f j := by
    intro f
    rw [Fin.sum_univ_two]
    fin_cases i <;> fin_cases j
    · exact absurd rfl hij
    · rfl
    · exact add_comm _ _
    · exact absurd rfl hij
  rw [hs, add_sub_cancel_left, add_sub_cancel_left, hi, hj, stay_fast.1, stay_fast.2, zero_mul, add_zero] at e
  have e' := hc (x0 + 1) (x0 + 3) 0 1 (by linarith) zero_le_one 0
  rw [hs, add_sub_cancel_left, add_sub_cancel_left, hi, hj, stay_slow.1, stay_slow.2] at e'
  have e1 : ∀ k, (demo *ᵥ carries rows cols left right k) 0 =
      6 * carries rows cols left right k 0 + -2 * carries rows cols left right k 1 := by
    intro k
    simp [mulVec, dotProduct, Fin.sum_univ_two, demo]
  rw [e1] at e
  rw [e1, e1] at e'
  exact ⟨by linarith, by linarith⟩

theorem demo_cols {rows cols : Matrix (Fin 2) (Fin 2) ℝ} {vals : Fin 2 → ℝ} (h : Decomposed demo rows cols vals) :
    let d := rows 0 0 * rows 1 1 - rows 0 1 * rows 1 0
    d * cols 0 0 = rows 1 1 ∧ d * cols 0 1 = -rows 0 1 ∧ d * cols 1 0 = -rows 1 0 ∧ d * cols 1 1 = rows 0 0 := by
  intro d
  have e : ∀ i j, cols i 0 * rows 0 j + cols i 1 * rows 1 j = (1 : Matrix (Fin 2) (Fin 2) ℝ) i j := by
    intro i j
    rw [← h.left_inv, mul_apply, Fin.sum_univ_two]
  have e00 : cols 0 0 * rows 0 0 + cols 0 1 * rows 1 0 = 1 := e 0 0
  have e01 : cols 0 0 * rows 0 1 + cols 0 1 * rows 1 1 = 0 := e 0 1
  have e10 : cols 1 0 * rows 0 0 + cols 1 1 * rows 1 0 = 0 := e 1 0
  have e11 : cols 1 0 * rows 0 1 + cols 1 1 * rows 1 1 = 1 := e 1 1
  refine ⟨?_, ?_, ?_, ?_⟩
  · linear_combination rows 1 1 * e00 - rows 1 0 * e01
  · linear_combination (-rows 0 1) * e00 + rows 0 0 * e01
  · linear_combination rows 1 1 * e10 - rows 1 0 * e11
  · linear_combination (-rows 0 1) * e10 + rows 0 0 * e11

/-- **C144.** In the demo, the reference is a solution exactly if the matrix of eigenvectors happens to be symmetric. -/
theorem demo_right_iff {rows cols : Matrix (Fin 2) (Fin 2) ℝ} {vals : Fin 2 → ℝ} (h : Decomposed demo rows cols vals)
    (x0 : ℝ) : Conserved demo (exact rows cols vals x0 demoLeft demoRight) ↔ rows.transpose = rows := by
  constructor
  · intro hc
    have hsym : rows 1 0 = rows 0 1 → rows.transpose = rows := by
      intro e
      ext i j
      fin_cases i <;> fin_cases j
      · rfl
      · exact e
      · exact e.symm
      · rfl
    apply hsym
    obtain ⟨hd, h'⟩ := demo_decomposed h
    obtain ⟨c00, c01, c10, c11⟩ := demo_cols h
    have dot : ∀ k, rows k ⬝ᵥ (demoRight - demoLeft) = 12 * rows k 0 - 4 * rows k 1 := by
      intro k
      simp [dotProduct, Fin.sum_univ_two, demoRight, demoLeft]
      ring
    have car : ∀ k l, carries rows cols demoLeft demoRight k l = (12 * rows k 0 - 4 * rows k 1) * cols l k := by
      intro k l
      unfold carries
      rw [dot]
      rfl
    have key : ∀ p q : ℝ, (12 * p - 4 * q) * (p + q) = 0 → (12 * p + 4 * q) * (p + q) = 0 → p * q ≠ 0 → p + q = 0 := by
      intro p q h1 h2 h3
      by_contra h4
      have h5 := (mul_eq_zero.1 h1).resolve_right h4
      have h6 := (mul_eq_zero.1 h2).resolve_right h4
      exact h3 (by rw [show p = 0 by linarith, zero_mul])
    rcases h' with ⟨v0, v1, r0, r1⟩ | ⟨v0, v1, r0, r1⟩
    · obtain ⟨e, e'⟩ := fronts h x0 (i := 0) (j := 1) (by decide) v0 v1 hc
      rw [car, car] at e e'
      simp only [r0, r1] at c00 c01 c10 c11 e e' hd ⊢
      have := key (rows 0 0) (rows 0 1) (by linear_combination (2 * rows 0 0 * rows 0 1) * e -
        (12 * rows 0 0 - 4 * rows 0 1) * c00 - (12 * rows 0 0 - 4 * rows 0 1) * c10)
        (by linear_combination (2 * rows 0 0 * rows 0 1) * e' +
          (12 * rows 0 0 + 4 * rows 0 1) * c01 - (12 * rows 0 0 + 4 * rows 0 1) * c11)
        fun h0 => hd (by linear_combination 2 * h0)
      linarith
    · obtain ⟨e, e'⟩ := fronts h x0 (i := 1) (j := 0) (by decide) v1 v0 hc
      rw [car, car] at e e'
      simp only [r0, r1] at c00 c01 c10 c11 e e' hd ⊢
      have := key (rows 0 0) (-rows 0 1) (by linear_combination (-2 * rows 0 0 * rows 0 1) * e -
        (12 * rows 0 0 + 4 * rows 0 1) * c01 - (12 * rows 0 0 + 4 * rows 0 1) * c11)
        (by linear_combination (-2 * rows 0 0 * rows 0 1) * e' -
          (12 * rows 0 0 - 4 * rows 0 1) * c00 + (12 * rows 0 0 - 4 * rows 0 1) * c10)
        fun h0 => hd (by linear_combination 2 * h0)
      linarith
  · exact fun hR => exact_solution_partial h demo_symmetric hR x0 _ _

/-- **C144.** In particular it is wrong for the rotation by 45 degrees, and whenever the eigenvectors are oriented like
the axes. -/
theorem demo_wrong {rows cols : Matrix (Fin 2) (Fin 2) ℝ} {vals : Fin 2 → ℝ} (h : Decomposed demo rows cols vals)
    (hd : 0 < rows.det) (x0 : ℝ) : ¬ Conserved demo (exact rows cols vals x0 demoLeft demoRight) := by
  rw [demo_right_iff h]
  intro hR
  have e : rows 1 0 = rows 0 1 := congrFun (congrFun hR 0) 1
  rw [det_fin_two] at hd
  obtain ⟨-, ⟨-, -, r0, r1⟩ | ⟨-, -, r0, r1⟩⟩ := demo_decomposed h
  · rw [r1, r0, show rows 0 1 = -rows 0 0 from e.symm.trans r0] at hd
    nlinarith [sq_nonneg (rows 0 0)]
  · rw [r1, r0, show rows 0 1 = rows 0 0 from e.symm.trans r0] at hd
    nlinarith [sq_nonneg (rows 0 0)]

/-- Eigenvectors, eight first, as a rotation would give them up to length. -/
noncomputable def turned : Matrix (Fin 2) (Fin 2) ℝ := !![1, 1; -1, 1]

theorem turned_decomposed : Decomposed demo turned !![1 / 2, -(1 / 2); 1 / 2, 1 / 2] ![8, 4] := by
  constructor
  · ext i j
    fin_cases i <;> fin_cases j <;> norm_num [turned, mul_apply, Fin.sum_univ_two]
  · intro k
    funext i
    fin_cases k <;> fin_cases i <;> norm_num [turned, demo, mulVec, dotProduct, Fin.sum_univ_two]

example (x0 : ℝ) : ¬ Conserved demo (exact turned !![1 / 2, -(1 / 2); 1 / 2, 1 / 2] ![8, 4] x0 demoLeft demoRight) :=
  demo_wrong turned_decomposed (by norm_num [turned, det_fin_two]) x0

/-- Four first and symmetric: for this one it is right. -/
theorem mirrored_decomposed : Decomposed demo !![1, 1; 1, -1] !![1 / 2, 1 / 2; 1 / 2, -(1 / 2)] ![4, 8] := by
  constructor
  · ext i j
    fin_cases i <;> fin_cases j <;> norm_num [mul_apply, Fin.sum_univ_two]
  · intro k
    funext i
    fin_cases k <;> fin_cases i <;> norm_num [demo, mulVec, dotProduct, Fin.sum_univ_two]

example (x0 : ℝ) :
    Conserved demo (exact !![1, 1; 1, -1] !![1 / 2, 1 / 2; 1 / 2, -(1 / 2)] ![4, 8] x0 demoLeft demoRight) := by
  rw [demo_right_iff mirrored_decomposed]
  ext i j
  fin_cases i <;> fin_cases j <;> rfl

end MiniCFD.Waves
