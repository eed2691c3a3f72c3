import Verif.Model.PyViscosity
import Mathlib.Tactic.Linarith
import Mathlib.Tactic.FieldSimp
import Mathlib.Tactic.Ring
import Mathlib.Algebra.BigOperators.Fin
import Mathlib.Analysis.Real.Sqrt

/-! Helper lemmas about the artificial viscosity. -/

namespace MiniCFD.PyViscosity

theorem fill_eq {α : Type*} (f : ℕ → Option α) : ∀ (is : List ℕ) (d0 d : Dict α),
    fill f is d0 = some d ↔ (∀ i ∈ is, (f i).isSome) ∧ d = fun i => if i ∈ is then f i else d0 i
  | [], d0, d => by
    constructor
    · intro h
      cases h
      simp
    · rintro ⟨_, rfl⟩
      simp [fill]
  | i :: is, d0, d => by
    unfold fill
    cases hf : f i with
    | none => simp [hf]
    | some a =>
      simp only [Option.bind_some, fill_eq f is, List.mem_cons, forall_eq_or_imp, hf, Option.isSome_some, true_and]
      refine and_congr_right fun _ => ?_
      have : (fun j => if j ∈ is then f j else Function.update d0 i (some a) j) =
          fun j => if j = i ∨ j ∈ is then f j else d0 j := by
        funext j
        by_cases hj : j = i
        · subst hj; simp [hf]
        · simp [hj]
      rw [this]

section Energy
open MiniCFD.PyQuad MiniCFD.PyExpansion
variable {p : ℕ}

theorem fold_sum {ι : Type*} (g : ι → ℝ) : ∀ (l : List ι) (a : ℝ), l.foldl (fun e k => e + g k) a = a + (l.map g).sum
  | [], a => by simp
  | i :: l, a => by rw [List.foldl_cons, fold_sum g l, List.map_cons, List.sum_cons]; ring

theorem filter_sum {ι : Type*} (q : ι → Bool) (g : ι → ℝ) : ∀ l : List ι,
    ((l.filter q).map g).sum = (l.map fun i => if q i then g i else 0).sum
  | [] => rfl
  | i :: l => by
    by_cases h : q i <;> simp [h, filter_sum q g l]

theorem energy_sum (s : Setup p) (jumps : Fin (p + 1) → ℝ) (q : Fin (p + 1) → Bool) (i : Fin (p + 1)) (hi : q i) :
    jumpsToEnergy s jumps ((List.finRange (p + 1)).filter q) =
      ∑ k, if q k then s.integrator.weights k * jumps k ^ 2 / 2 else 0 := by
  have hne : ((List.finRange (p + 1)).filter q).isEmpty = false := by
    rw [List.isEmpty_eq_false_iff]
    exact List.ne_nil_of_mem (List.mem_filter.2 ⟨List.mem_finRange i, hi⟩)
  unfold jumpsToEnergy
  simp only [hne, Bool.false_eq_true, if_false]
  rw [fold_sum, zero_add, filter_sum, Fin.sum_univ_def]

theorem lower_sum (s : Setup p) (jumps : Fin (p + 1) → ℝ) : jumpsToEnergy s jumps (lowerHalf p) =
    ∑ k : Fin (p + 1), if 2 * (k : ℕ) ≤ p then s.integrator.weights k * jumps k ^ 2 / 2 else 0 := by
  unfold lowerHalf
  rw [energy_sum s jumps _ 0 (by simp; omega)]
  refine Finset.sum_congr rfl fun k _ => ?_
  have : k.val < (1 + (p + 1)) / 2 ↔ 2 * k.val ≤ p := by omega
  simp only [decide_eq_true_eq, this]

theorem upper_sum (s : Setup p) (jumps : Fin (p + 1) → ℝ) : jumpsToEnergy s jumps (upperHalf p) =
    ∑ k : Fin (p + 1), if p ≤ 2 * (k : ℕ) then s.integrator.weights k * jumps k ^ 2 / 2 else 0 := by
  unfold upperHalf
  rw [energy_sum s jumps _ (Fin.last p) (by simp; omega)]
  refine Finset.sum_congr rfl fun k _ => ?_
  have : (p + 1) / 2 ≤ k.val ↔ p ≤ 2 * k.val := by omega
  simp only [decide_eq_true_eq, this]

theorem half_zero {points values : Fin (p + 1) → ℝ} {other : ℝ → ℝ} {i : Fin (p + 1)} :
    halfJumps points values other i = 0 ↔ values i = other (points i) := by
  unfold halfJumps
  dsimp only
  split_ifs
  · rw [div_eq_zero_iff, or_iff_left (by positivity), sub_eq_zero]
  · exact sub_eq_zero

theorem half_sq (points values : Fin (p + 1) → ℝ) (other : ℝ → ℝ) (i : Fin (p + 1)) :
    halfJumps points values other i ^ 2 =
      if 2 * (i : ℕ) = p then (values i - other (points i)) ^ 2 / 2 else (values i - other (points i)) ^ 2 := by
  unfold halfJumps
  have : (p + 1) % 2 = 1 ∧ i.val = p / 2 ↔ 2 * i.val = p := by omega
  simp only [this]
  split_ifs
  · rw [div_pow, Real.sq_sqrt (by norm_num)]
  · rfl

end Energy

end MiniCFD.PyViscosity
