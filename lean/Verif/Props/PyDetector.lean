import Verif.Lemmas.PyDetector
import Verif.Props.PyGauss
import Verif.Props.PyDG

/-!
# C107: jump detectors
-/

namespace MiniCFD.PyDetector

open MiniCFD.PyQuad MiniCFD.PyExpansion MiniCFD.PyLimiter

/-- C107: The reported elements are exactly those above the bound, in increasing order and without repetition. -/
theorem troubled_spec {n : ℕ} (bound : ℝ) (smoothness : Fin n → ℝ) :
    (∀ i, i ∈ troubled bound smoothness ↔ bound < smoothness i) ∧ (troubled bound smoothness).Pairwise (· < ·) := by
  classical
  have := collect_spec (n := n) fun i => smoothness i > bound
  unfold troubled
  convert this

/-- C107: `All` reports all elements. -/
theorem all_spec (n : ℕ) : (∀ i, i ∈ all n) ∧ (all n).Pairwise (· < ·) :=
  ⟨fun i => List.mem_finRange i, List.pairwise_lt_finRange n⟩

/-- An element of the grid with its neighbours: expansions made by the constructors and set by the operations, of
positive length, and the neighbours touch it (after the shift across a periodic boundary). -/
structure Placed {p m : ℕ} (co : Coordinate) (c : Cell p m) : Prop where
  pos : co.xLeft < co.xRight
  built : Built co c.setup
  reached : Reached c.setup c.state
  left : ∀ b, c.left = some b → ∃ co' : Coordinate, co'.xLeft < co'.xRight ∧ Built co' b.setup ∧ Reached b.setup b.state ∧
    co'.xRight + b.shift = co.xLeft
  right : ∀ b, c.right = some b → ∃ co' : Coordinate, co'.xLeft < co'.xRight ∧ Built co' b.setup ∧ Reached b.setup b.state ∧
    co'.xLeft + b.shift = co.xRight

/-- The value of the solution in an element. -/
noncomputable def Cell.u {p m : ℕ} (c : Cell p m) (x : ℝ) : Value m := c.setup.value c.state x

section Krivodonova
variable {p m : ℕ} {co : Coordinate} {c : Cell p m}

open scoped Classical in
private noncomputable def inflow (velocity : Value m → ℝ) (co : Coordinate) (c : Cell p m) (k : Fin (m + 1)) : ℝ :=
  (match c.left with
    | none => 0
    | some b => if 0 ≤ velocity (c.u co.xLeft) then |c.u co.xLeft k - b.value co.xLeft k| else 0) +
  (match c.right with
    | none => 0
    | some b => if velocity (c.u co.xRight) ≤ 0 then |c.u co.xRight k - b.value co.xRight k| else 0)

private theorem inflow_nonneg (velocity : Value m → ℝ) (k : Fin (m + 1)) : 0 ≤ inflow velocity co c k := by
  unfold inflow
  refine add_nonneg ?_ ?_ <;> split <;> (try split_ifs) <;> positivity

private theorem krivodonova_eq (h : Placed co c) (velocity : Value m → ℝ) :
    krivodonova velocity c = scalarSmoothness (inflow velocity co c)
      (fun k => (co.xRight - co.xLeft) ^ (((p : ℝ) + 1) / 2) * (|c.state.average k| + tiny)) := by
  obtain ⟨e1, e2⟩ := own_boundary h.pos h.built h.reached
  have hl : ∀ b, c.left = some b → boundaryValue b false = b.value co.xLeft := by
    intro b hb
    obtain ⟨co', h1, h2, h3, h4⟩ := h.left b hb
    rw [boundaryValue, (own_boundary h1 h2 h3).2, Neighbour.value, ← h4, add_sub_cancel_right]
  have hr : ∀ b, c.right = some b → boundaryValue b true = b.value co.xRight := by
    intro b hb
    obtain ⟨co', h1, h2, h3, h4⟩ := h.right b hb
    rw [boundaryValue, (own_boundary h1 h2 h3).1, Neighbour.value, ← h4, add_sub_cancel_right]
  unfold krivodonova
  rw [(h.built.sane h.pos).2, co.eq_linear.1, e1, e2]
  dsimp only
  congr 1
  funext k
  unfold inflow
  rw [zero_add]
  congr 1
  · cases hb : c.left with
    | none => rfl
    | some b =>
      dsimp only
      rw [hl b hb]
      by_cases hv : 0 ≤ velocity (c.u co.xLeft)
      · rw [if_pos hv, if_pos (show velocity (c.setup.value c.state co.xLeft) ≥ 0 from hv)]; rfl
      · rw [if_neg hv, if_neg (show ¬ velocity (c.setup.value c.state co.xLeft) ≥ 0 from hv)]; rfl
  · cases hb : c.right with
    | none => rfl
    | some b =>
      dsimp only
      rw [hr b hb]
      by_cases hv : velocity (c.u co.xRight) ≤ 0
      · rw [if_pos hv, if_pos (show velocity (c.setup.value c.state co.xRight) ≤ 0 from hv)]; rfl
      · rw [if_neg hv, if_neg (show ¬ velocity (c.setup.value c.state co.xRight) ≤ 0 from hv)]; rfl

private theorem divisor_pos (h : Placed co c) (k : Fin (m + 1)) :
    0 < (co.xRight - co.xLeft) ^ (((p : ℝ) + 1) / 2) * (|c.state.average k| + tiny) :=
  mul_pos (Real.rpow_pos_of_pos (by linarith [h.pos]) _) (add_pos_of_nonneg_of_pos (abs_nonneg _) tiny_pos)

/-- C107: The smoothness of `Krivodonova2004` is zero exactly if the solution is continuous where the flow enters the
element; jumps where it leaves do not count. -/
theorem krivodonova_zero (h : Placed co c) (velocity : Value m → ℝ) :
    krivodonova velocity c = 0 ↔
      (∀ b, c.left = some b → 0 ≤ velocity (c.u co.xLeft) → b.value co.xLeft = c.u co.xLeft) ∧
      (∀ b, c.right = some b → velocity (c.u co.xRight) ≤ 0 → b.value co.xRight = c.u co.xRight) := by
  rw [krivodonova_eq h, scalar_zero (inflow_nonneg velocity) (divisor_pos h)]
  have two : ∀ {a b : ℝ}, 0 ≤ a → 0 ≤ b → (a + b = 0 ↔ a = 0 ∧ b = 0) := fun ha hb =>
    ⟨fun e => ⟨by linarith, by linarith⟩, fun e => by rw [e.1, e.2, add_zero]⟩
  have key : ∀ k, inflow velocity co c k = 0 ↔
      (∀ b, c.left = some b → 0 ≤ velocity (c.u co.xLeft) → b.value co.xLeft k = c.u co.xLeft k) ∧
      (∀ b, c.right = some b → velocity (c.u co.xRight) ≤ 0 → b.value co.xRight k = c.u co.xRight k) := by
    intro k
    unfold inflow
    rw [two (by split <;> (try split_ifs) <;> positivity) (by split <;> (try split_ifs) <;> positivity)]
    refine and_congr ?_ ?_
    · cases hb : c.left with
      | none => simp
      | some b =>
        simp only [Option.some.injEq, forall_eq']
        split_ifs with hv
        · rw [abs_eq_zero, sub_eq_zero, eq_comm]; simp only [hv, true_implies]
        · simp [hv]
    · cases hb : c.right with
      | none => simp
      | some b =>
        simp only [Option.some.injEq, forall_eq']
        split_ifs with hv
        · rw [abs_eq_zero, sub_eq_zero, eq_comm]; simp only [hv, true_implies]
        · simp [hv]
  simp only [key]
  exact ⟨fun e => ⟨fun b hb hv => funext fun k => (e k).1 b hb hv, fun b hb hv => funext fun k => (e k).2 b hb hv⟩,
    fun e k => ⟨fun b hb hv => congrFun (e.1 b hb hv) k, fun b hb hv => congrFun (e.2 b hb hv) k⟩⟩

/-- C107: Under refinement smooth solutions, with jumps of order `h ^ (p + 1)`, are not reported by
`Krivodonova2004`. -/
theorem krivodonova_smooth (p : ℕ) {C : ℝ} (hC : 0 < C) : ∃ h0 > 0, ∀ {m : ℕ} {co : Coordinate} {c : Cell p m}
    (velocity : Value m → ℝ), Placed co c → co.xRight - co.xLeft < h0 →
    (∀ b k, c.left = some b → |c.u co.xLeft k - b.value co.xLeft k| ≤ C * (co.xRight - co.xLeft) ^ (p + 1)) →
    (∀ b k, c.right = some b → |c.u co.xRight k - b.value co.xRight k| ≤ C * (co.xRight - co.xLeft) ^ (p + 1)) →
    krivodonova velocity c ≤ 1 := by
  have ht := tiny_pos
  refine ⟨(tiny / (2 * C)) ^ (2 / ((p : ℝ) + 1)), Real.rpow_pos_of_pos (by positivity) _, ?_⟩
  intro m co c velocity h hlt hl hr
  have hh : 0 < co.xRight - co.xLeft := by linarith [h.pos]
  have hf := factor_lt p hh (by positivity) hlt
  have hs := factor_sq p hh
  have hf0 : 0 < (co.xRight - co.xLeft) ^ (((p : ℝ) + 1) / 2) := Real.rpow_pos_of_pos hh _
  rw [krivodonova_eq h, scalar_le]
  intro k
  rw [div_le_one (divisor_pos h k)]
  have hCp : 0 ≤ C * (co.xRight - co.xLeft) ^ (p + 1) := by positivity
  have hi : inflow velocity co c k ≤ 2 * (C * (co.xRight - co.xLeft) ^ (p + 1)) := by
    unfold inflow
    rw [two_mul]
    refine add_le_add ?_ ?_
    · cases hb : c.left with
      | none => exact hCp
      | some b => dsimp only; split_ifs; exacts [hl b k hb, hCp]
    · cases hb : c.right with
      | none => exact hCp
      | some b => dsimp only; split_ifs; exacts [hr b k hb, hCp]
  refine hi.trans ?_
  rw [← hs]
  set f := (co.xRight - co.xLeft) ^ (((p : ℝ) + 1) / 2)
  have h1 : 2 * C * f ≤ tiny := by
    have := mul_lt_mul_of_pos_left hf (show 0 < 2 * C by positivity)
    rw [mul_div_cancel₀ _ (show 2 * C ≠ 0 by positivity)] at this
    exact this.le
  have h2 := mul_le_mul_of_nonneg_left h1 hf0.le
  have h3 : 0 ≤ f * |c.state.average k| := mul_nonneg hf0.le (abs_nonneg _)
  nlinarith

/-- C107: Under refinement a jump that stays is reported by `Krivodonova2004` in the element that the flow enters
through it. -/
theorem krivodonova_jump (p : ℕ) {J M : ℝ} (hJ : 0 < J) (hM : 0 ≤ M) : ∃ h0 > 0, ∀ {m : ℕ} {co : Coordinate} {c : Cell p m}
    (velocity : Value m → ℝ) (k : Fin (m + 1)), Placed co c → co.xRight - co.xLeft < h0 → |c.state.average k| ≤ M →
    ((∃ b, c.left = some b ∧ 0 ≤ velocity (c.u co.xLeft) ∧ J ≤ |c.u co.xLeft k - b.value co.xLeft k|) ∨
     (∃ b, c.right = some b ∧ velocity (c.u co.xRight) ≤ 0 ∧ J ≤ |c.u co.xRight k - b.value co.xRight k|)) →
    1 < krivodonova velocity c := by
  have ht := tiny_pos
  refine ⟨(J / (M + tiny)) ^ (2 / ((p : ℝ) + 1)), Real.rpow_pos_of_pos (by positivity) _, ?_⟩
  intro m co c velocity k h hlt hav hj
  have hh : 0 < co.xRight - co.xLeft := by linarith [h.pos]
  have hf := factor_lt p hh (by positivity) hlt
  have hf0 : 0 < (co.xRight - co.xLeft) ^ (((p : ℝ) + 1) / 2) := Real.rpow_pos_of_pos hh _
  rw [krivodonova_eq h]
  refine scalar_gt.2 ⟨k, ?_⟩
  rw [gt_iff_lt, one_lt_div (divisor_pos h k)]
  have hi : J ≤ inflow velocity co c k := by
    unfold inflow
    rcases hj with ⟨b, hb, hv, hj⟩ | ⟨b, hb, hv, hj⟩
    · rw [hb]
      dsimp only
      rw [if_pos hv]
      have : (0 : ℝ) ≤ (match c.right with
        | none => 0
        | some b => if velocity (c.u co.xRight) ≤ 0 then |c.u co.xRight k - b.value co.xRight k| else 0) := by
        split <;> (try split_ifs) <;> positivity
      linarith
    · rw [hb]
      dsimp only
      rw [if_pos hv]
      have : (0 : ℝ) ≤ (match c.left with
        | none => 0
        | some b => if 0 ≤ velocity (c.u co.xLeft) then |c.u co.xLeft k - b.value co.xLeft k| else 0) := by
        split <;> (try split_ifs) <;> positivity
      linarith
  refine lt_of_lt_of_le ?_ hi
  rw [lt_div_iff₀ (by positivity)] at hf
  exact lt_of_le_of_lt (mul_le_mul_of_nonneg_left (by linarith) hf0.le) hf

end Krivodonova

section Extrapolation
variable {p m n : ℕ}

private theorem floor_pos {a : ℝ} (h : 0 ≤ a) : 0 < a + tiny := add_pos_of_nonneg_of_pos h tiny_pos

/-- The neighbours of an element as a list. -/
def Cell.neighbours (c : Cell p m) : List (Neighbour p (Value m)) := c.left.toList ++ c.right.toList

/-- `liWanAi` with the two optional parts put together. -/
private theorem liWanAi_eq (cells : Fin (n + 1) → Cell p m) (i : Fin (n + 1)) : ∃ norm : Value m,
    (∀ k, 0 ≤ norm k ∧ norm k ≤ |(cells i).state.average k|) ∧
    liWanAi cells i = scalarSmoothness
      (fun k => ((cells i).neighbours.map fun b => |(cells i).u (cells i).setup.coordinate.xCenter k -
        b.value (cells i).setup.coordinate.xCenter k|).sum)
      (fun k => (cells i).neighbours.length * (cells i).setup.coordinate.length ^ (((p : ℝ) + 1) / 2) * (norm k + tiny)) := by
  unfold liWanAi Cell.neighbours Cell.u
  cases hl : (cells i).left with
  | none =>
    cases hr : (cells i).right with
    | none => exact ⟨fun k => |(cells i).state.average k|, fun k => ⟨abs_nonneg _, le_rfl⟩, by
      simp only [hl, hr]
      simp
      rfl⟩
    | some b =>
      exact ⟨fun k => min |(cells i).state.average k| |(cells (next i)).state.average k|,
        fun k => ⟨le_min (abs_nonneg _) (abs_nonneg _), min_le_left _ _⟩, by
        simp only [hl, hr]
        simp⟩
  | some a =>
    cases hr : (cells i).right with
    | none =>
      exact ⟨fun k => min |(cells i).state.average k| |(cells (previous i)).state.average k|,
        fun k => ⟨le_min (abs_nonneg _) (abs_nonneg _), min_le_left _ _⟩, by
        simp only [hl, hr]
        simp⟩
    | some b =>
      refine ⟨fun k => min (min |(cells i).state.average k| |(cells (previous i)).state.average k|)
        |(cells (next i)).state.average k|,
        fun k => ⟨le_min (le_min (abs_nonneg _) (abs_nonneg _)) (abs_nonneg _), (min_le_left _ _).trans (min_le_left _ _)⟩, ?_⟩
      simp only [hl, hr]
      simp only [Option.toList_some, List.cons_append, List.nil_append, List.map_cons, List.map_nil, List.sum_cons, List.sum_nil,
        List.length_cons, List.length_nil, zero_add, add_zero, Nat.cast_add, Nat.cast_one]

private theorem sum_abs_zero {α : Type*} (l : List α) (f : α → ℝ) : (l.map fun b => |f b|).sum = 0 ↔ ∀ b ∈ l, f b = 0 := by
  have hn : ∀ l : List α, 0 ≤ (l.map fun b => |f b|).sum := fun l => List.sum_nonneg (by simp)
  induction l with
  | nil => simp
  | cons a l ih =>
    rw [List.map_cons, List.sum_cons]
    constructor
    · intro h b hb
      have h1 : |f a| = 0 := by linarith [abs_nonneg (f a), hn l]
      have h2 : (l.map fun b => |f b|).sum = 0 := by linarith
      rcases List.mem_cons.1 hb with rfl | hb
      · exact abs_eq_zero.1 h1
      · exact ih.1 h2 b hb
    · intro h
      rw [h a List.mem_cons_self, ih.2 fun b hb => h b (List.mem_cons_of_mem _ hb), abs_zero, add_zero]

private theorem lwa_divisor (cells : Fin (n + 1) → Cell p m) {i : Fin (n + 1)} {co : Coordinate} (h : Placed co (cells i))
    (hn : (cells i).neighbours ≠ []) {norm : Value m} (hnorm : ∀ k, 0 ≤ norm k) (k : Fin (m + 1)) :
    0 < (cells i).neighbours.length * (cells i).setup.coordinate.length ^ (((p : ℝ) + 1) / 2) * (norm k + tiny) := by
  rw [(h.built.sane h.pos).2, co.eq_linear.1]
  have : (0 : ℝ) < (cells i).neighbours.length := by exact_mod_cast List.length_pos_iff.2 hn
  exact mul_pos (mul_pos this (Real.rpow_pos_of_pos (by linarith [h.pos]) _)) (floor_pos (hnorm k))

/-- C107: The smoothness of `LiWanAi2011` is zero exactly if the polynomials of all neighbours agree with the own one at
the centre of the element. -/
theorem liWanAi_zero (cells : Fin (n + 1) → Cell p m) {i : Fin (n + 1)} {co : Coordinate} (h : Placed co (cells i))
    (hn : (cells i).neighbours ≠ []) :
    liWanAi cells i = 0 ↔ ∀ b ∈ (cells i).neighbours, b.value co.xCenter = (cells i).u co.xCenter := by
  obtain ⟨norm, h1, h2⟩ := liWanAi_eq cells i
  rw [h2, scalar_zero (fun k => List.sum_nonneg (by simp)) (lwa_divisor cells h hn fun k => (h1 k).1)]
  rw [(h.built.sane h.pos).2]
  simp only [sum_abs_zero, sub_eq_zero]
  exact ⟨fun e b hb => funext fun k => (e k b hb).symm, fun e k b hb => congrFun (e b hb).symm k⟩

/-- C107: Under refinement smooth solutions are not reported by `LiWanAi2011`. -/
theorem liWanAi_smooth (p : ℕ) {C : ℝ} (hC : 0 < C) : ∃ h0 > 0, ∀ {m n : ℕ} (cells : Fin (n + 1) → Cell p m)
    {i : Fin (n + 1)} {co : Coordinate}, Placed co (cells i) → (cells i).neighbours ≠ [] → co.xRight - co.xLeft < h0 →
    (∀ b ∈ (cells i).neighbours, ∀ k, |(cells i).u co.xCenter k - b.value co.xCenter k| ≤ C * (co.xRight - co.xLeft) ^ (p + 1)) →
    liWanAi cells i ≤ 1 ∧ liWanAi cells i ≤ liWanAiBound p := by
  have ht := tiny_pos
  refine ⟨(tiny / C) ^ (2 / ((p : ℝ) + 1)), Real.rpow_pos_of_pos (by positivity) _, ?_⟩
  intro m n cells i co h hn hlt hb
  have hh : 0 < co.xRight - co.xLeft := by linarith [h.pos]
  have hf := factor_lt p hh (by positivity) hlt
  have hs := factor_sq p hh
  have hf0 : 0 < (co.xRight - co.xLeft) ^ (((p : ℝ) + 1) / 2) := Real.rpow_pos_of_pos hh _
  have key : liWanAi cells i ≤ 1 := by
    obtain ⟨norm, h1, h2⟩ := liWanAi_eq cells i
    rw [h2, scalar_le]
    intro k
    rw [div_le_one (lwa_divisor cells h hn (fun k => (h1 k).1) k), (h.built.sane h.pos).2, co.eq_linear.1]
    have hsum : ((cells i).neighbours.map fun b => |(cells i).u co.xCenter k - b.value co.xCenter k|).sum ≤
        (cells i).neighbours.length * (C * (co.xRight - co.xLeft) ^ (p + 1)) := by
      have := List.sum_le_card_nsmul ((cells i).neighbours.map fun b => |(cells i).u co.xCenter k - b.value co.xCenter k|)
        (C * (co.xRight - co.xLeft) ^ (p + 1)) (by
          intro x hx
          obtain ⟨b, hb', rfl⟩ := List.mem_map.1 hx
          exact hb b hb' k)
      rwa [List.length_map, nsmul_eq_mul] at this
    refine hsum.trans ?_
    rw [← hs, mul_assoc]
    refine mul_le_mul_of_nonneg_left ?_ (Nat.cast_nonneg _)
    rw [lt_div_iff₀ hC] at hf
    rw [show C * ((co.xRight - co.xLeft) ^ (((p : ℝ) + 1) / 2) * (co.xRight - co.xLeft) ^ (((p : ℝ) + 1) / 2)) =
      (co.xRight - co.xLeft) ^ (((p : ℝ) + 1) / 2) * ((co.xRight - co.xLeft) ^ (((p : ℝ) + 1) / 2) * C) by ring]
    exact mul_le_mul_of_nonneg_left (by linarith [(h1 k).1]) hf0.le
  refine ⟨key, key.trans ?_⟩
  unfold liWanAiBound
  split_ifs <;> norm_num

/-- C107: Under refinement a jump that stays is reported by `LiWanAi2011`. -/
theorem liWanAi_jump (p : ℕ) {J M : ℝ} (hJ : 0 < J) (hM : 0 ≤ M) : ∃ h0 > 0, ∀ {m n : ℕ} (cells : Fin (n + 1) → Cell p m)
    {i : Fin (n + 1)} {co : Coordinate} (k : Fin (m + 1)), Placed co (cells i) → co.xRight - co.xLeft < h0 →
    |(cells i).state.average k| ≤ M →
    (∃ b ∈ (cells i).neighbours, J ≤ |(cells i).u co.xCenter k - b.value co.xCenter k|) →
    liWanAiBound p < liWanAi cells i := by
  have ht := tiny_pos
  refine ⟨(J / (6 * (M + tiny))) ^ (2 / ((p : ℝ) + 1)), Real.rpow_pos_of_pos (by positivity) _, ?_⟩
  intro m n cells i co k h hlt hav ⟨b, hb, hj⟩
  have hn : (cells i).neighbours ≠ [] := List.ne_nil_of_mem hb
  have hlen : ((cells i).neighbours.length : ℝ) ≤ 2 := by
    have : (cells i).neighbours.length ≤ 2 := by
      unfold Cell.neighbours
      cases (cells i).left <;> cases (cells i).right <;> simp
    exact_mod_cast this
  have hh : 0 < co.xRight - co.xLeft := by linarith [h.pos]
  have hf := factor_lt p hh (by positivity) hlt
  have hf0 : 0 < (co.xRight - co.xLeft) ^ (((p : ℝ) + 1) / 2) := Real.rpow_pos_of_pos hh _
  have hbound : liWanAiBound p ≤ 3 := by unfold liWanAiBound; split_ifs <;> norm_num
  refine lt_of_le_of_lt hbound ?_
  obtain ⟨norm, h1, h2⟩ := liWanAi_eq cells i
  rw [h2]
  refine scalar_gt.2 ⟨k, ?_⟩
  rw [gt_iff_lt, lt_div_iff₀ (lwa_divisor cells h hn (fun k => (h1 k).1) k), (h.built.sane h.pos).2, co.eq_linear.1]
  have hsum : J ≤ ((cells i).neighbours.map fun b => |(cells i).u co.xCenter k - b.value co.xCenter k|).sum :=
    hj.trans (List.single_le_sum (by simp) _ (List.mem_map.2 ⟨b, hb, rfl⟩))
  refine lt_of_lt_of_le ?_ hsum
  rw [lt_div_iff₀ (by positivity)] at hf
  have hk := (h1 k).2.trans hav
  have e1 : (cells i).neighbours.length * (co.xRight - co.xLeft) ^ (((p : ℝ) + 1) / 2) * (norm k + tiny) ≤
      2 * (co.xRight - co.xLeft) ^ (((p : ℝ) + 1) / 2) * (M + tiny) :=
    mul_le_mul (mul_le_mul_of_nonneg_right hlen hf0.le) (by linarith) (floor_pos (h1 k).1).le (by positivity)
  linarith

private theorem zhuJun_eq (cells : Fin (n + 1) → Cell p m) (i : Fin (n + 1)) {co : Coordinate} (h : Placed co (cells i))
    (hs : ∀ j, ∃ co, Placed co (cells j)) : ∃ norm dividend : Value m,
    (∀ k, 0 ≤ norm k ∧ norm k ≤ (cells i).setup.integrator.norm1 fun x => (cells i).u x k) ∧
    (∀ k, (∀ b ∈ (cells i).neighbours, difference (cells i) b k ≤ dividend k) ∧
      (dividend k = 0 ∨ ∃ b ∈ (cells i).neighbours, dividend k = difference (cells i) b k)) ∧
    zhuJun cells i = scalarSmoothness dividend (fun k => (norm k + tiny) * (co.xRight - co.xLeft)) := by
  have hnn : ∀ j k, 0 ≤ (cells j).setup.integrator.norm1 fun x => (cells j).u x k := by
    intro j k
    obtain ⟨co', h'⟩ := hs j
    rw [Integrator.norm1, Integrator.integrate_eq]
    exact Finset.sum_nonneg fun q _ => by
      rw [smul_eq_mul]
      exact mul_nonneg ((built_integrator h'.pos h'.built).1 q).le (abs_nonneg _)
  have hd : ∀ b k, 0 ≤ difference (cells i) b k := fun b k => abs_nonneg _
  have hmax : ∀ b k, max 0 (difference (cells i) b k) = difference (cells i) b k := fun b k => max_eq_right (hd b k)
  have hz : ∀ b k, (0 : Value m) k ≤ difference (cells i) b k := fun b k => hd b k
  rw [← co.eq_linear.1, ← (h.built.sane h.pos).2]
  unfold zhuJun
  dsimp only
  cases hl : (cells i).left with
  | none =>
    cases hr : (cells i).right with
    | none =>
      refine ⟨_, 0, fun k => ⟨hnn i k, le_rfl⟩, fun k => ⟨fun b hb => ?_, Or.inl rfl⟩, by simp only [hl, hr]; rfl⟩
      simp [Cell.neighbours, hl, hr] at hb
    | some b =>
      refine ⟨fun k => min ((cells i).setup.integrator.norm1 fun x => (cells i).u x k)
        ((cells (next i)).setup.integrator.norm1 fun x => (cells (next i)).u x k), fun k => difference (cells i) b k,
        fun k => ⟨le_min (hnn _ k) (hnn _ k), min_le_left _ _⟩, fun k => ⟨fun b' hb => ?_, Or.inr ⟨b, ?_, rfl⟩⟩, ?_⟩
      · simp [Cell.neighbours, hl, hr] at hb; rw [hb]
      · simp [Cell.neighbours, hr]
      · simp only [hl, hr]
        congr 1
        funext k
        exact max_eq_right (hd b k)
  | some a =>
    cases hr : (cells i).right with
    | none =>
      refine ⟨fun k => min ((cells i).setup.integrator.norm1 fun x => (cells i).u x k)
        ((cells (previous i)).setup.integrator.norm1 fun x => (cells (previous i)).u x k), fun k => difference (cells i) a k,
        fun k => ⟨le_min (hnn _ k) (hnn _ k), min_le_left _ _⟩, fun k => ⟨fun b' hb => ?_, Or.inr ⟨a, ?_, rfl⟩⟩, ?_⟩
      · simp [Cell.neighbours, hl, hr] at hb; rw [hb]
      · simp [Cell.neighbours, hl]
      · simp only [hl, hr]
        congr 1
        funext k
        exact max_eq_right (hd a k)
    | some b =>
      refine ⟨fun k => min (min ((cells i).setup.integrator.norm1 fun x => (cells i).u x k)
        ((cells (previous i)).setup.integrator.norm1 fun x => (cells (previous i)).u x k))
        ((cells (next i)).setup.integrator.norm1 fun x => (cells (next i)).u x k),
        fun k => max (difference (cells i) a k) (difference (cells i) b k),
        fun k => ⟨le_min (le_min (hnn _ k) (hnn _ k)) (hnn _ k), (min_le_left _ _).trans (min_le_left _ _)⟩,
        fun k => ⟨fun b' hb => ?_, Or.inr ?_⟩, ?_⟩
      · simp [Cell.neighbours, hl, hr] at hb
        rcases hb with rfl | rfl
        · exact le_max_left _ _
        · exact le_max_right _ _
      · rcases max_choice (difference (cells i) a k) (difference (cells i) b k) with e | e
        · exact ⟨a, by simp [Cell.neighbours, hl], e⟩
        · exact ⟨b, by simp [Cell.neighbours, hr], e⟩
      · simp only [hl, hr]
        congr 1
        funext k
        rw [hmax]

private theorem difference_eq {c : Cell p m} {co : Coordinate} (h : Placed co c) (hl : c.setup.kind = .lobatto → p ≤ 5)
    (b : Neighbour p (Value m)) (k : Fin (m + 1)) :
    difference c b k = |∫ x in co.xLeft..co.xRight, c.u x k - b.value x k| := by
  unfold difference
  congr 1
  obtain ⟨v, hv⟩ := taylor_polynomial c.setup.coordinate.xCenter 0 c.state.taylor
  obtain ⟨w, hw⟩ := neighbour_polynomial b 0
  have hf : (fun x => c.setup.value c.state x - b.value x) = polynomial (v - w) := by
    funext x
    have h1 : c.setup.value c.state x = polynomial v x := by rw [← hv x, sub_zero]; rfl
    have h2 : b.value x = polynomial w x := by rw [← hw x, add_zero]
    rw [h1, h2]
    simp only [polynomial, Pi.sub_apply, smul_sub, Finset.sum_sub_distrib]
  have key := integrator_polynomial h.pos h.built hl (v - w)
  rw [← hf] at key
  have hne : co.xRight - co.xLeft ≠ 0 := by linarith [h.pos]
  rw [Integrator.average, (built_integrator h.pos h.built).2, co.eq_linear.1, smul_smul, mul_inv_cancel₀ hne, one_smul] at key
  rw [key]
  have hcont : Continuous fun x => c.setup.value c.state x - b.value x := by
    rw [hf]; unfold polynomial; fun_prop
  exact (ContinuousLinearMap.intervalIntegral_comp_comm (ContinuousLinearMap.proj (R := ℝ) k)
    (hcont.intervalIntegrable (μ := MeasureTheory.volume) co.xLeft co.xRight)).symm

/-- C107: The smoothness of `ZhuJun2021` is zero exactly if the polynomials of all neighbours have the mean of the own one
over the element. -/
theorem zhuJun_zero (cells : Fin (n + 1) → Cell p m) {i : Fin (n + 1)} {co : Coordinate} (h : Placed co (cells i))
    (hs : ∀ j, ∃ co, Placed co (cells j)) (hl : (cells i).setup.kind = .lobatto → p ≤ 5) :
    0 ≤ zhuJun cells i ∧ (zhuJun cells i = 0 ↔ ∀ b ∈ (cells i).neighbours, ∀ k,
      ∫ x in co.xLeft..co.xRight, (cells i).u x k - b.value x k = 0) := by
  obtain ⟨norm, d, h1, h2, h3⟩ := zhuJun_eq cells i h hs
  have hd : ∀ k, 0 ≤ d k := by
    intro k
    rcases (h2 k).2 with e | ⟨b, _, e⟩
    · exact e.ge
    · rw [e]; exact abs_nonneg _
  have hpos : ∀ k, 0 < (norm k + tiny) * (co.xRight - co.xLeft) := fun k =>
    mul_pos (floor_pos (h1 k).1) (by linarith [h.pos])
  rw [h3]
  refine ⟨scalar_nonneg hd fun k => (hpos k).le, ?_⟩
  rw [scalar_zero hd hpos]
  constructor
  · intro e b hb k
    have := (h2 k).1 b hb
    rw [e k, difference_eq h hl] at this
    exact abs_eq_zero.1 (le_antisymm this (abs_nonneg _))
  · intro e k
    rcases (h2 k).2 with e' | ⟨b, hb, e'⟩
    · exact e'
    · rw [e', difference_eq h hl, e b hb k, abs_zero]

/-- C107: Under refinement smooth solutions are not reported by `ZhuJun2021`. -/
theorem zhuJun_smooth (p : ℕ) {C : ℝ} (hC : 0 < C) : ∃ h0 > 0, ∀ {m n : ℕ} (cells : Fin (n + 1) → Cell p m)
    {i : Fin (n + 1)} {co : Coordinate}, Placed co (cells i) → (∀ j, ∃ co, Placed co (cells j)) →
    ((cells i).setup.kind = .lobatto → p ≤ 5) → co.xRight - co.xLeft < h0 →
    (∀ b ∈ (cells i).neighbours, ∀ k, |∫ x in co.xLeft..co.xRight, (cells i).u x k - b.value x k| ≤
      (co.xRight - co.xLeft) * (C * (co.xRight - co.xLeft) ^ (p + 1))) →
    zhuJun cells i ≤ 1 := by
  have ht := tiny_pos
  refine ⟨min 1 (tiny / C), lt_min one_pos (by positivity), ?_⟩
  intro m n cells i co h hs hl hlt hb
  obtain ⟨norm, d, h1, h2, h3⟩ := zhuJun_eq cells i h hs
  have hh : 0 < co.xRight - co.xLeft := by linarith [h.pos]
  have hpos : ∀ k, 0 < (norm k + tiny) * (co.xRight - co.xLeft) := fun k => mul_pos (floor_pos (h1 k).1) hh
  rw [h3, scalar_le]
  intro k
  rw [div_le_one (hpos k)]
  rcases (h2 k).2 with e | ⟨b, hb', e⟩
  · rw [e]; exact (hpos k).le
  · rw [e, difference_eq h hl]
    refine (hb b hb' k).trans ?_
    rw [mul_comm]
    refine mul_le_mul_of_nonneg_right ?_ hh.le
    have h4 : (co.xRight - co.xLeft) ^ (p + 1) ≤ co.xRight - co.xLeft := by
      rw [pow_succ]
      exact mul_le_of_le_one_left hh.le (pow_le_one₀ hh.le (hlt.le.trans (min_le_left _ _)))
    have h5 := hlt.trans_le (min_le_right _ _)
    rw [lt_div_iff₀ hC] at h5
    nlinarith [(h1 k).1]

/-- C107: Under refinement a jump that stays is reported by `ZhuJun2021`. -/
theorem zhuJun_jump (p : ℕ) {J M : ℝ} (hJ : tiny < J) (hM : 0 ≤ M) : ∃ h0 > 0, ∀ {m n : ℕ} (cells : Fin (n + 1) → Cell p m)
    {i : Fin (n + 1)} {co : Coordinate} (k : Fin (m + 1)), Placed co (cells i) → (∀ j, ∃ co, Placed co (cells j)) →
    ((cells i).setup.kind = .lobatto → p ≤ 5) → co.xRight - co.xLeft < h0 →
    (∀ q, |(cells i).u ((cells i).setup.integrator.points q) k| ≤ M) →
    (∃ b ∈ (cells i).neighbours, (co.xRight - co.xLeft) * J ≤ |∫ x in co.xLeft..co.xRight, (cells i).u x k - b.value x k|) →
    1 < zhuJun cells i := by
  have ht := tiny_pos
  refine ⟨(J - tiny) / (M + 1), div_pos (by linarith) (by linarith), ?_⟩
  intro m n cells i co k h hs hl hlt hav ⟨b, hb, hj⟩
  obtain ⟨norm, d, h1, h2, h3⟩ := zhuJun_eq cells i h hs
  have hh : 0 < co.xRight - co.xLeft := by linarith [h.pos]
  have hpos : ∀ k, 0 < (norm k + tiny) * (co.xRight - co.xLeft) := fun k => mul_pos (floor_pos (h1 k).1) hh
  have hw : ∑ q, (cells i).setup.integrator.weights q = co.xRight - co.xLeft := by
    have key := integrator_polynomial (V := ℝ) h.pos h.built hl (fun l => if l = 0 then 1 else 0)
    have hf : polynomial (V := ℝ) (fun l : Fin (p + 1) => if l = 0 then 1 else 0) = fun _ => 1 := by
      funext x
      simp only [polynomial]
      rw [Finset.sum_eq_single 0]
      · simp
      · intro l _ hl; simp [hl]
      · simp
    rw [hf, Integrator.average, (built_integrator h.pos h.built).2, co.eq_linear.1, smul_smul,
      mul_inv_cancel₀ hh.ne', one_smul, Integrator.integrate_eq] at key
    simpa using key
  have hn : norm k ≤ M * (co.xRight - co.xLeft) := by
    refine (h1 k).2.trans ?_
    rw [Integrator.norm1, Integrator.integrate_eq, ← hw, Finset.mul_sum]
    refine Finset.sum_le_sum fun q _ => ?_
    rw [smul_eq_mul, mul_comm]
    exact mul_le_mul_of_nonneg_right (hav q) ((built_integrator h.pos h.built).1 q).le
  rw [h3]
  refine scalar_gt.2 ⟨k, ?_⟩
  rw [gt_iff_lt, lt_div_iff₀ (hpos k), one_mul]
  refine lt_of_lt_of_le ?_ ((difference_eq h hl b k ▸ hj).trans ((h2 k).1 b hb))
  rw [mul_comm]
  refine mul_lt_mul_of_pos_left ?_ hh
  rw [lt_div_iff₀ (by linarith)] at hlt
  nlinarith

end Extrapolation

section Values
variable {p m n : ℕ}

/-- The neighbours hold what the elements before and behind, in cyclic order, hold. -/
def Linked (cells : Fin (n + 1) → Cell p m) : Prop := ∀ i j : Fin (n + 1), ((i : ℕ) + 1) % (n + 1) = j →
  (∀ b, (cells i).right = some b → b.setup = (cells j).setup ∧ b.state = (cells j).state) ∧
  (∀ b, (cells j).left = some b → b.setup = (cells i).setup ∧ b.state = (cells i).state)

private theorem next_link (i : Fin (n + 1)) : ((i : ℕ) + 1) % (n + 1) = next i := rfl

private theorem previous_link (i : Fin (n + 1)) : (((previous i : Fin (n + 1)) : ℕ) + 1) % (n + 1) = i := by
  unfold previous
  split_ifs with h
  · rw [h]; simp
  · have : (i : ℕ) ≠ 0 := fun e => h (Fin.ext e)
    have hi := i.2
    change ((i : ℕ) - 1 + 1) % (n + 1) = i
    rw [Nat.sub_add_cancel (by omega), Nat.mod_eq_of_lt hi]

/-- The largest of the quotients of two values. -/
noncomputable def largest (d e : Value m) : ℝ := Finset.univ.sup' Finset.univ_nonempty fun k => d k / e k

/-- C107: What `LiWanAi2011` computes. -/
theorem liWanAi_value (cells : Fin (n + 1) → Cell p m) (hl : Linked cells) {i : Fin (n + 1)} {co : Coordinate} (h : Placed co (cells i)) :
    liWanAi cells i = largest
      (fun k => ((cells i).neighbours.map fun b => |(cells i).u co.xCenter k - b.value co.xCenter k|).sum)
      (fun k => (cells i).neighbours.length * (co.xRight - co.xLeft) ^ (((p : ℝ) + 1) / 2) *
        (((cells i).neighbours.map fun b => |b.state.average k|).foldl min |(cells i).state.average k| + 1 / 10 ^ 8)) := by
  have e := (h.built.sane h.pos).2
  have hlen := co.eq_linear.1
  unfold liWanAi Cell.neighbours Cell.u
  cases hb : (cells i).left with
  | none =>
    cases hb' : (cells i).right with
    | none => simp only [hb, hb', e, hlen]; simp [largest, scalarSmoothness]
    | some b' =>
      have h2 := ((hl i _ (next_link i)).1 b' hb').2
      simp only [hb, hb', e, hlen, ← h2]; simp [largest, scalarSmoothness, tiny]
  | some b =>
    have h1 := ((hl _ i (previous_link i)).2 b hb).2
    cases hb' : (cells i).right with
    | none => simp only [hb, hb', e, hlen, ← h1]; simp [largest, scalarSmoothness, tiny]
    | some b' =>
      have h2 := ((hl i _ (next_link i)).1 b' hb').2
      simp only [hb, hb', e, hlen, ← h1, ← h2]; simp [largest, scalarSmoothness, tiny, one_add_one_eq_two]

/-- C107: The elements that `LiWanAi2011` reports: the quotient of some component is above 1 up to degree 2, above 3
from degree 3 on. -/
theorem liWanAi_reported (cells : Fin (n + 1) → Cell p m) (hl : Linked cells) {i : Fin (n + 1)} {co : Coordinate}
    (h : Placed co (cells i)) (hn : (cells i).neighbours ≠ []) :
    i ∈ troubled (liWanAiBound p) (liWanAi cells) ↔ ∃ k,
      (if 3 ≤ p then 3 else 1) * ((cells i).neighbours.length * (co.xRight - co.xLeft) ^ (((p : ℝ) + 1) / 2) *
        (((cells i).neighbours.map fun b => |b.state.average k|).foldl min |(cells i).state.average k| + 1 / 10 ^ 8)) <
      ((cells i).neighbours.map fun b => |(cells i).u co.xCenter k - b.value co.xCenter k|).sum := by
  have hb : liWanAiBound p = if 3 ≤ p then 3 else 1 := by
    unfold liWanAiBound
    by_cases hp : 3 ≤ p
    · rw [if_pos (by omega), if_pos hp]; norm_num
    · rw [if_neg (by omega), if_neg hp]; norm_num
  have hmin : ∀ (l : List ℝ) (a : ℝ), 0 ≤ a → (∀ x ∈ l, 0 ≤ x) → 0 ≤ l.foldl min a := by
    intro l
    induction l with
    | nil => intro a ha _; exact ha
    | cons x l ih =>
      intro a ha hx
      exact ih _ (le_min ha (hx x List.mem_cons_self)) fun y hy => hx y (List.mem_cons_of_mem _ hy)
  rw [(troubled_spec _ _).1, liWanAi_value cells hl h, hb, largest, Finset.lt_sup'_iff]
  simp only [Finset.mem_univ, true_and]
  refine exists_congr fun k => ?_
  rw [lt_div_iff₀]
  have h1 : (0 : ℝ) < (cells i).neighbours.length := by exact_mod_cast List.length_pos_iff.2 hn
  have h2 := hmin ((cells i).neighbours.map fun b => |b.state.average k|) _ (abs_nonneg ((cells i).state.average k))
    (by simp)
  exact mul_pos (mul_pos h1 (Real.rpow_pos_of_pos (by linarith [h.pos]) _)) (by positivity)

/-- C107: What `ZhuJun2021` computes. -/
theorem zhuJun_value (cells : Fin (n + 1) → Cell p m) (hl : Linked cells) {i : Fin (n + 1)} {co : Coordinate} (h : Placed co (cells i))
    (hl' : (cells i).setup.kind = .lobatto → p ≤ 5) :
    zhuJun cells i = largest
      (fun k => ((cells i).neighbours.map fun b => |∫ x in co.xLeft..co.xRight, (cells i).u x k - b.value x k|).foldl max 0)
      (fun k => (((cells i).neighbours.map fun b => b.setup.integrator.norm1 fun x => b.setup.value b.state x k).foldl min
        ((cells i).setup.integrator.norm1 fun x => (cells i).u x k) + 1 / 10 ^ 8) * (co.xRight - co.xLeft)) := by
  have e := (h.built.sane h.pos).2
  have hlen := co.eq_linear.1
  have hd : ∀ b k, |∫ x in co.xLeft..co.xRight, (cells i).u x k - b.value x k| = difference (cells i) b k := fun b k =>
    (difference_eq h hl' b k).symm
  simp only [hd]
  unfold zhuJun Cell.neighbours Cell.u
  cases hb : (cells i).left with
  | none =>
    cases hb' : (cells i).right with
    | none => simp only [hb, hb', e, hlen]; simp [largest, scalarSmoothness]
    | some b' =>
      obtain ⟨h1, h2⟩ := (hl i _ (next_link i)).1 b' hb'
      simp only [hb, hb', e, hlen, ← h1, ← h2]; simp [largest, scalarSmoothness, tiny]
  | some b =>
    obtain ⟨h1, h2⟩ := (hl _ i (previous_link i)).2 b hb
    cases hb' : (cells i).right with
    | none => simp only [hb, hb', e, hlen, ← h1, ← h2]; simp [largest, scalarSmoothness, tiny]
    | some b' =>
      obtain ⟨h3, h4⟩ := (hl i _ (next_link i)).1 b' hb'
      simp only [hb, hb', e, hlen, ← h1, ← h2, ← h3, ← h4]; simp [largest, scalarSmoothness, tiny]

open scoped Classical in
/-- C107: What `Krivodonova2004` computes. -/
theorem krivodonova_value {co : Coordinate} {c : Cell p m} (h : Placed co c) (velocity : Value m → ℝ) :
    krivodonova velocity c = largest
      (fun k => (if 0 ≤ velocity (c.u co.xLeft) then (c.left.toList.map fun b => |c.u co.xLeft k - b.value co.xLeft k|).sum else 0) +
        if velocity (c.u co.xRight) ≤ 0 then (c.right.toList.map fun b => |c.u co.xRight k - b.value co.xRight k|).sum else 0)
      (fun k => (co.xRight - co.xLeft) ^ (((p : ℝ) + 1) / 2) * (|c.state.average k| + 1 / 10 ^ 8)) := by
  rw [krivodonova_eq h]
  unfold largest scalarSmoothness inflow tiny
  congr 1
  funext k
  congr 2
  · cases c.left <;> simp
  · cases c.right <;> simp

end Values

/-- Two elements with constant solutions 0 and `J`. -/
noncomputable def step (s : Fin 2 → Setup 1) (J : ℝ) (i : Fin 2) : Cell 1 0 :=
  let state : Fin 2 → State 1 (Value 0) := fun i =>
    setTaylor (s i) fun l => if l = 0 then (if i = 0 then 0 else fun _ => J) else 0
  ⟨s i, state i, if i = 0 then none else some ⟨s 0, state 0, 0⟩, if i = 0 then some ⟨s 1, state 1, 0⟩ else none⟩

/-- All three detectors tell `J = 0` from `J = 1`. -/
example : ∃ s : Fin 2 → Setup 1, ∀ J : ℝ, (∀ i, Placed (PyDG.pair i) (step s J i)) ∧ Linked (step s J) ∧
    (krivodonova (fun _ => 1) (step s J 1) = 0 ↔ J = 0) ∧ (liWanAi (step s J) 0 = 0 ↔ J = 0) ∧
    (zhuJun (step s J) 0 = 0 ↔ J = 0) := by
  choose s hs using fun i => (constructors (PyDG.pair_pos i) gauss2_exact).2.2.1
  have hb : ∀ i, Built (PyDG.pair i) (s i) := fun i => .modal _ gauss2_exact (hs i)
  have hk : ∀ i, (s i).kind = .modal := fun i => (modal_sane (PyDG.pair_pos i) (hs i)).2.1
  refine ⟨s, fun J => ?_⟩
  have hp : ∀ i, Placed (PyDG.pair i) (step s J i) := by
    intro i
    refine ⟨PyDG.pair_pos i, hb i, .taylor _ rfl, fun b h => ?_, fun b h => ?_⟩
    · fin_cases i
      · simp [step] at h
      · simp only [step, Fin.mk_one, Fin.isValue, one_ne_zero, if_false, Option.some.injEq] at h
        subst h
        exact ⟨PyDG.pair 0, PyDG.pair_pos 0, hb 0, .taylor _ rfl, by simp [PyDG.pair, Coordinate.xRight, Coordinate.xLeft]⟩
    · fin_cases i
      · simp only [step, Fin.zero_eta, Fin.isValue, if_true, Option.some.injEq] at h
        subst h
        exact ⟨PyDG.pair 1, PyDG.pair_pos 1, hb 1, .taylor _ rfl, by simp [PyDG.pair, Coordinate.xRight, Coordinate.xLeft]⟩
      · simp [step] at h
  have hu : ∀ i x, (step s J i).u x = if i = 0 then 0 else fun _ => J := fun i x => constant_value _ _ _
  have hleft : ∀ b, (step s J 1).left = some b → ∀ x, b.value x = 0 := by
    intro b h x
    simp only [step, Fin.isValue, one_ne_zero, if_false, Option.some.injEq] at h
    subst h
    exact constant_value _ _ _
  have hright : ∀ b ∈ (step s J 0).neighbours, ∀ x, b.value x = fun _ => J := by
    intro b h x
    simp only [Cell.neighbours, step, Fin.isValue, if_true, Option.toList_none, List.nil_append, Option.toList_some,
      List.mem_singleton] at h
    subst h
    exact constant_value _ _ _
  have hsome : ∃ b, b ∈ (step s J 0).neighbours := ⟨⟨s 1, (step s J 1).state, 0⟩, by simp [Cell.neighbours, step]⟩
  have hlink : Linked (step s J) := by
    intro i j hij
    fin_cases i <;> fin_cases j <;> simp at hij
    · refine ⟨fun b h => ?_, fun b h => ?_⟩
      · simp only [step, Fin.isValue, if_true, Option.some.injEq, Fin.zero_eta] at h
        subst h; exact ⟨rfl, rfl⟩
      · simp only [step, Fin.isValue, one_ne_zero, if_false, Option.some.injEq, Fin.mk_one] at h
        subst h; exact ⟨rfl, rfl⟩
    · refine ⟨fun b h => ?_, fun b h => ?_⟩ <;> simp [step] at h
  refine ⟨hp, hlink, ?_, ?_, ?_⟩
  · rw [krivodonova_zero (hp 1)]
    constructor
    · rintro ⟨h, _⟩
      have h2 : (step s J 1).left = some ⟨s 0, (step s J 0).state, 0⟩ := by simp [step]
      have := congrFun (h _ h2 zero_le_one) 0
      rw [hleft _ h2, hu] at this
      exact this.symm
    · rintro rfl
      refine ⟨fun b h _ => ?_, fun b h => ?_⟩
      · rw [hleft b h, hu]; rfl
      · simp [step] at h
  · rw [liWanAi_zero _ (hp 0) (List.ne_nil_of_mem hsome.choose_spec)]
    constructor
    · intro h
      obtain ⟨b, hb'⟩ := hsome
      have := congrFun (h b hb') 0
      rw [hright b hb', hu] at this
      exact this
    · rintro rfl b hb'
      rw [hright b hb', hu]; rfl
  · rw [(zhuJun_zero _ (hp 0) (fun j => ⟨_, hp j⟩) (by simp [step, hk])).2]
    constructor
    · intro h
      obtain ⟨b, hb'⟩ := hsome
      have := h b hb' 0
      simp only [hright b hb', hu, if_true, Pi.zero_apply, zero_sub, intervalIntegral.integral_const, smul_eq_mul,
        PyDG.pair_length, one_mul, neg_eq_zero] at this
      exact this
    · rintro rfl b hb' k
      simp [hright b hb', hu]

end MiniCFD.PyDetector
