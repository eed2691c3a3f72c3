import Verif.Model.Weno
import Verif.Lemmas.Projection
import Verif.Lemmas.Taylor
import Mathlib.Tactic.Linarith
import Mathlib.Tactic.Positivity
import Mathlib.Tactic.FieldSimp
import Mathlib.Algebra.Order.BigOperators.Group.List
import Mathlib.Algebra.BigOperators.Field

namespace MiniCFD.Weno

open MiniCFD.Ortho MiniCFD.Projection

variable {Pt : Type*} {n K : Nat}

theorem foldl_plus (l : List (Coeff K n)) (c : Coeff K n) (r : Fin K) (i : Fin (n + 1)) :
    l.foldl plus c r i = c r i + (l.map fun d => d r i).sum := by
  induction l generalizing c with
  | nil => simp
  | cons d l ih => rw [List.foldl_cons, ih, List.map_cons, List.sum_cons, plus]; ring

theorem foldl_add (l : List (Value K)) (s : Value K) (r : Fin K) :
    l.foldl (fun s w r => s r + w r) s r = s r + (l.map fun w => w r).sum := by
  induction l generalizing s with
  | nil => simp
  | cons d l ih => rw [List.foldl_cons, ih, List.map_cons, List.sum_cons]; ring

theorem total_eq (ws : List (Value K) × Value K) (r : Fin K) :
    total ws r = (ws.1.map fun w => w r).sum + ws.2 r := by
  rw [total, foldl_add]
  simp

/-- The weights after normalisation. -/
noncomputable def normalized (t : TaylorOps Pt n) (b : Basis Pt n) (w0 eps : ℝ) (borrowed : List (Coeff K n))
    (own : Coeff K n) : List (Value K) × Value K :=
  let ws := weights t b w0 eps borrowed own
  (ws.1.map fun w r => w r / total ws r, fun r => ws.2 r / total ws r)

theorem sum_map_div (l : List (Value K)) (s : Value K) (r : Fin K) :
    ((l.map fun w r => w r / s r).map fun w => w r).sum = (l.map fun w => w r).sum / s r := by
  induction l with
  | nil => simp
  | cons d l ih =>
    rw [List.map_cons, List.map_cons, List.sum_cons, List.map_cons, List.sum_cons, ih, add_div]

theorem normalized_sum {t : TaylorOps Pt n} {b : Basis Pt n} {w0 eps : ℝ} {borrowed : List (Coeff K n)}
    {own : Coeff K n} (r : Fin K) (h : total (weights t b w0 eps borrowed own) r ≠ 0) :
    ((normalized t b w0 eps borrowed own).1.map fun w => w r).sum + (normalized t b w0 eps borrowed own).2 r
      = 1 := by
  simp only [normalized]
  rw [sum_map_div, ← add_div, ← total_eq, div_self h]

theorem normalized_length (t : TaylorOps Pt n) (b : Basis Pt n) (w0 eps : ℝ) (borrowed : List (Coeff K n))
    (own : Coeff K n) : (normalized t b w0 eps borrowed own).1.length = borrowed.length := by
  simp [normalized, weights]

/-- The weighted sum, entry by entry. -/
theorem weighted_some {t : TaylorOps Pt n} {b : Basis Pt n} {w0 eps : ℝ} {borrowed : List (Coeff K n)}
    {own new : Coeff K n} (h : weighted t b w0 eps borrowed own = some new) :
    (∀ r, total (weights t b w0 eps borrowed own) r ≠ 0) ∧
    ∀ r i, new r i = (List.zipWith (fun (w : Value K) (c : Coeff K n) => w r * c r i)
        (normalized t b w0 eps borrowed own).1 borrowed).sum
      + (normalized t b w0 eps borrowed own).2 r * own r i := by
  unfold weighted at h
  split at h
  · exact absurd h (by simp)
  · simp only at h
    split at h
    · exact absurd h (by simp)
    · rename_i h2
      push Not at h2
      refine ⟨h2, fun r i => ?_⟩
      obtain rfl := Option.some.inj h
      rw [foldl_plus]
      simp only [normalized, scaleRows, List.map_zipWith, List.zipWith_map_left]
      rw [add_comm, mul_comm]
      congr 2
      refine congrArg (fun g => List.zipWith g _ _) ?_
      funext w c
      ring

theorem weighted_defined {t : TaylorOps Pt n} {b : Basis Pt n} {w0 eps : ℝ} {borrowed : List (Coeff K n)}
    {own : Coeff K n} (h1 : ∀ c ∈ borrowed ++ [own], ∀ r, smoothness t b c r + eps ≠ 0)
    (h2 : ∀ r, total (weights t b w0 eps borrowed own) r ≠ 0) :
    ∃ new, weighted t b w0 eps borrowed own = some new := by
  unfold weighted
  rw [if_neg (by push Not; exact h1)]
  simp only
  rw [if_neg (by push Not; exact h2)]
  exact ⟨_, rfl⟩

/-- A weighted sum of equal numbers. -/
theorem sum_zipWith_const {α β : Type*} (ws : List α) (cs : List β) (f : α → ℝ) (g : β → ℝ) (a : ℝ)
    (hl : ws.length = cs.length) (h : ∀ c ∈ cs, g c = a) :
    (List.zipWith (fun w c => f w * g c) ws cs).sum = (ws.map f).sum * a := by
  induction ws generalizing cs with
  | nil => simp
  | cons w ws ih =>
    cases cs with
    | nil => simp at hl
    | cons c cs =>
      rw [List.zipWith_cons_cons, List.sum_cons, List.map_cons, List.sum_cons,
        ih cs (by simpa using hl) (fun c hc => h c (List.mem_cons_of_mem _ hc)), h c (List.mem_cons_self ..)]
      ring

theorem weighted_const {t : TaylorOps Pt n} {b : Basis Pt n} {w0 eps : ℝ} {borrowed : List (Coeff K n)}
    {own new : Coeff K n} (h : weighted t b w0 eps borrowed own = some new) (r : Fin K) (i : Fin (n + 1))
    (hc : ∀ c ∈ borrowed, c r i = own r i) : new r i = own r i := by
  obtain ⟨h1, h2⟩ := weighted_some h
  rw [h2, sum_zipWith_const _ _ (fun w : Value K => w r) (fun c : Coeff K n => c r i) (own r i)
    (normalized_length ..) hc, ← add_mul, normalized_sum r (h1 r), one_mul]

/-- Positive weights. -/
theorem modify_pos {t : TaylorOps Pt n} {b : Basis Pt n} {eps w : ℝ} {c : Coeff K n} {r : Fin K}
    (hs : 0 ≤ smoothness t b c r) (he : 0 < eps) (hw : 0 < w) : 0 < modify t b eps w c r := by
  unfold modify
  positivity

theorem weights_pos {t : TaylorOps Pt n} {b : Basis Pt n} {w0 eps : ℝ} {borrowed : List (Coeff K n)}
    {own : Coeff K n} (hs : ∀ (c : Coeff K n) r, 0 ≤ smoothness t b c r) (he : 0 < eps) (h0 : 0 < w0)
    (h1 : borrowed.length * w0 < 1) :
    (∀ w ∈ (weights t b w0 eps borrowed own).1, ∀ r, 0 < w r) ∧
    ∀ r, 0 < (weights t b w0 eps borrowed own).2 r := by
  refine ⟨fun w hw r => ?_, fun r => modify_pos (hs _ _) he (by linarith)⟩
  obtain ⟨c, _, rfl⟩ := List.mem_map.1 hw
  exact modify_pos (hs _ _) he h0

theorem total_pos {ws : List (Value K) × Value K} (h1 : ∀ w ∈ ws.1, ∀ r, 0 < w r) (h2 : ∀ r, 0 < ws.2 r)
    (r : Fin K) : 0 < total ws r := by
  rw [total_eq]
  have : 0 ≤ (ws.1.map fun w => w r).sum := List.sum_nonneg fun x hx => by
    obtain ⟨w, hw, rfl⟩ := List.mem_map.1 hx
    exact (h1 w hw r).le
  linarith [h2 r]

variable {b : Basis Pt n}

/-- Every borrowed projection has the average of the cell. -/
theorem borrowOne_average (s : Sound b) (own : Coeff K n) (f : Pt → Value K) (r : Fin K) :
    average b (borrowOne b own f) r = average b own r := by
  have := s.ne
  simp only [average, borrowOne, shift, if_true]
  field_simp
  ring

theorem borrowOne_zero (s : Sound b) (own : Coeff K n) (f : Pt → Value K) (r : Fin K) :
    borrowOne b own f r 0 = own r 0 := by
  have h := borrowOne_average s own f r
  exact mul_right_cancel₀ s.ne h

/-- A neighbour that differs by a constant is borrowed as the projection of the cell. -/
theorem borrowOne_same (s : Sound b) (own : Coeff K n) (f : Pt → Value K) (offset : Value K)
    (h : ∀ pw ∈ b.rule, ∀ r, f pw.1 r = value b own pw.1 r + offset r) : borrowOne b own f = own := by
  have hp : project b f = shift b offset own := by
    rw [project_congr (g := value b (shift b offset own)), project_value s]
    intro pw hpw
    funext r
    rw [h pw hpw]
    simp only [value]
    rw [← Finset.add_sum_erase _ _ (Finset.mem_univ (0 : Fin (n + 1))),
      ← Finset.add_sum_erase (a := (0 : Fin (n + 1))) _ (fun c => shift b offset own r c * _) (Finset.mem_univ _)]
    have h2 : ∀ c ∈ Finset.univ.erase (0 : Fin (n + 1)), shift b offset own r c * basisValues b pw.1 c
        = own r c * basisValues b pw.1 c := by
      intro c hc
      rw [shift, if_neg (Finset.ne_of_mem_erase hc)]
    rw [Finset.sum_congr rfl h2]
    simp only [shift, if_true, s.const]
    have := s.ne
    field_simp
    ring
  funext r i
  by_cases hi : i = 0
  · subst hi; exact borrowOne_zero s own f r
  · simp only [borrowOne, shift, if_neg hi, hp]

end MiniCFD.Weno
