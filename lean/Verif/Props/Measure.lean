import Verif.Model.Measure
import Verif.Lemmas.Ortho
import Verif.Props.Carry
import Mathlib.Algebra.Order.BigOperators.Group.List
import Mathlib.Data.List.Perm.Basic

/-!
# C142: the error that runs report

`MeasureL1Error` is the integral of the distance from the given function, component by component.
-/

namespace MiniCFD.Measure

open MiniCFD.Projection MiniCFD.Ortho

variable {Pt : Type} {K n : Nat}

theorem onCell_eq (exact : Pt → ℝ → Value K) (t : ℝ) (error : Value K) (cell : Basis Pt n × Coeff K n) (r : Fin K) :
    onCell exact t error cell r =
      error r + integrate (fun x => |Projection.value cell.1 cell.2 x r - exact x t r|) cell.1.rule := by
  unfold onCell
  rw [integrate_eq]
  generalize cell.1.rule = l
  induction l generalizing error with
  | nil => simp
  | cons xw l ih =>
    rw [List.foldl_cons, ih, List.map_cons, List.sum_cons]
    simp only [Pi.add_apply, Pi.sub_apply]
    ring

/-- **C142.** What is returned is the sum over the cells of the integral of the distance. -/
theorem measure_spec (cells : List (Basis Pt n × Coeff K n)) (exact : Pt → ℝ → Value K) (t : ℝ) (r : Fin K) :
    measure cells exact t r = (cells.map fun cell =>
      integrate (fun x => |(∑ i, cell.2 r i * basisValues cell.1 x i) - exact x t r|) cell.1.rule).sum := by
  have h : ∀ (l : List (Basis Pt n × Coeff K n)) (error : Value K), l.foldl (onCell exact t) error r = error r +
      (l.map fun cell => integrate (fun x => |Projection.value cell.1 cell.2 x r - exact x t r|) cell.1.rule).sum := by
    intro l
    induction l with
    | nil => simp
    | cons cell l ih =>
      intro error
      rw [List.foldl_cons, ih, onCell_eq, List.map_cons, List.sum_cons, add_assoc]
  unfold measure
  rw [h, Pi.zero_apply, zero_add]
  rfl

theorem integrate_nonneg {rule : Rule Pt} (hw : ∀ xw ∈ rule, 0 < xw.2) {f : Pt → ℝ} (hf : ∀ x, 0 ≤ f x) :
    0 ≤ integrate f rule := by
  rw [integrate_eq]
  refine List.sum_nonneg fun y hy => ?_
  obtain ⟨xw, hx, rfl⟩ := List.mem_map.1 hy
  exact mul_nonneg (hf _) (hw xw hx).le

theorem sum_zero {l : List ℝ} (h : ∀ x ∈ l, 0 ≤ x) : l.sum = 0 ↔ ∀ x ∈ l, x = 0 := by
  induction l with
  | nil => simp
  | cons a l ih =>
    have h0 := h a (List.mem_cons_self ..)
    have hl := List.sum_nonneg fun x hx => h x (List.mem_cons_of_mem _ hx)
    rw [List.sum_cons, List.forall_mem_cons, ← ih fun x hx => h x (List.mem_cons_of_mem _ hx)]
    constructor
    · intro e
      exact ⟨by linarith, by linarith⟩
    · rintro ⟨rfl, e⟩
      rw [e, add_zero]

/-- Weights are positive, as those of Gaussian rules are on cells that are not turned inside out. -/
def Weighted (cells : List (Basis Pt n × Coeff K n)) : Prop := ∀ cell ∈ cells, ∀ xw ∈ cell.1.rule, 0 < xw.2

/-- **C142.** It is zero only if the solution has the right values at all Gaussian points of all cells. -/
theorem measure_zero {cells : List (Basis Pt n × Coeff K n)} (hw : Weighted cells) (exact : Pt → ℝ → Value K) (t : ℝ)
    (r : Fin K) : measure cells exact t r = 0 ↔
      ∀ cell ∈ cells, ∀ xw ∈ cell.1.rule, ∑ i, cell.2 r i * basisValues cell.1 xw.1 i = exact xw.1 t r := by
  rw [measure_spec, sum_zero]
  · simp only [List.forall_mem_map]
    refine forall₂_congr fun cell hc => ?_
    rw [integrate_eq, sum_zero]
    · simp only [List.forall_mem_map]
      refine forall₂_congr fun xw hx => ?_
      rw [mul_eq_zero, abs_eq_zero, sub_eq_zero]
      exact ⟨fun h => h.resolve_right (hw cell hc xw hx).ne', .inl⟩
    · intro y hy
      obtain ⟨xw, hx, rfl⟩ := List.mem_map.1 hy
      exact mul_nonneg (abs_nonneg _) (hw cell hc xw hx).le
  · intro y hy
    obtain ⟨cell, hc, rfl⟩ := List.mem_map.1 hy
    exact integrate_nonneg (hw cell hc) fun _ => abs_nonneg _

/-- It is never negative. -/
theorem measure_nonneg {cells : List (Basis Pt n × Coeff K n)} (hw : Weighted cells) (exact : Pt → ℝ → Value K) (t : ℝ)
    (r : Fin K) : 0 ≤ measure cells exact t r := by
  rw [measure_spec]
  refine List.sum_nonneg fun y hy => ?_
  obtain ⟨cell, hc, rfl⟩ := List.mem_map.1 hy
  exact integrate_nonneg (hw cell hc) fun _ => abs_nonneg _

/-- **C142.** Errors with respect to two functions differ at most by the distance of the functions: the second is
measured as if the first were the solution. -/
theorem measure_triangle {cells : List (Basis Pt n × Coeff K n)} (hw : Weighted cells) (exact exact' : Pt → ℝ → Value K)
    (t : ℝ) (r : Fin K) : measure cells exact t r ≤ measure cells exact' t r +
      (cells.map fun cell => integrate (fun x => |exact x t r - exact' x t r|) cell.1.rule).sum := by
  rw [measure_spec, measure_spec]
  have h : ∀ (l : List (Basis Pt n × Coeff K n)) (a b d : Basis Pt n × Coeff K n → ℝ), (∀ cell ∈ l, a cell ≤ b cell + d cell) →
      (l.map a).sum ≤ (l.map b).sum + (l.map d).sum := by
    intro l a b d
    induction l with
    | nil => simp
    | cons x l ih =>
      intro h
      have h1 := h x (List.mem_cons_self ..)
      have h2 := ih fun y hy => h y (List.mem_cons_of_mem _ hy)
      simp only [List.map_cons, List.sum_cons]
      linarith
  refine h cells _ _ _ fun cell hc => ?_
  simp only [integrate_eq]
  have hw' := hw cell hc
  revert hw'
  generalize cell.1.rule = l
  intro hw'
  induction l with
  | nil => simp
  | cons xw l ih =>
    have h2 := ih fun y hy => hw' y (List.mem_cons_of_mem _ hy)
    have h0 := hw' xw (List.mem_cons_self ..)
    have h1 : |(∑ i, cell.2 r i * basisValues cell.1 xw.1 i) - exact xw.1 t r| ≤
        |(∑ i, cell.2 r i * basisValues cell.1 xw.1 i) - exact' xw.1 t r| + |exact xw.1 t r - exact' xw.1 t r| := by
      have := abs_sub ((∑ i, cell.2 r i * basisValues cell.1 xw.1 i) - exact' xw.1 t r) (exact xw.1 t r - exact' xw.1 t r)
      rwa [show (∑ i, cell.2 r i * basisValues cell.1 xw.1 i) - exact' xw.1 t r - (exact xw.1 t r - exact' xw.1 t r) =
        (∑ i, cell.2 r i * basisValues cell.1 xw.1 i) - exact xw.1 t r by ring] at this
    have h3 := mul_le_mul_of_nonneg_right h1 h0.le
    simp only [List.map_cons, List.sum_cons]
    linarith

/-- **C142.** Processes which share the cells of a mesh, in whatever order, together report the error on the mesh. -/
theorem reduce_whole {ranks : List (List (Basis Pt n × Coeff K n))} {cells : List (Basis Pt n × Coeff K n)}
    (h : ranks.flatten.Perm cells) (exact : Pt → ℝ → Value K) (t : ℝ) : reduce ranks exact t = measure cells exact t := by
  have e : ∀ l : List (List (Basis Pt n × Coeff K n)), reduce l exact t = measure l.flatten exact t := by
    intro l
    funext r
    rw [measure_spec]
    induction l with
    | nil => simp [reduce]
    | cons a l ih =>
      have e1 : reduce (a :: l) exact t = measure a exact t + reduce l exact t := by
        simp [reduce]
      rw [e1, Pi.add_apply, ih, measure_spec, List.flatten_cons, List.map_append, List.sum_append]
  rw [e]
  funext r
  rw [measure_spec, measure_spec]
  exact (h.map _).sum_eq

/-- **C142.** What one process reports by itself (demo/linear/multiple.cpp:202-204) is at most the error on the mesh, and
equals it only if all others are without error. -/
theorem local_below {cells others : List (Basis Pt n × Coeff K n)} (hw : Weighted others) (exact : Pt → ℝ → Value K)
    (t : ℝ) (r : Fin K) : measure cells exact t r ≤ reduce [cells, others] exact t r ∧
      (measure cells exact t r = reduce [cells, others] exact t r ↔
        ∀ cell ∈ others, ∀ xw ∈ cell.1.rule, ∑ i, cell.2 r i * basisValues cell.1 xw.1 i = exact xw.1 t r) := by
  have e : reduce [cells, others] exact t r = measure cells exact t r + measure others exact t r := by
    simp [reduce]
  have h := measure_nonneg hw exact t r
  rw [← measure_zero hw, e]
  exact ⟨by linarith, by rw [left_eq_add]⟩

/-! ### With C141: the error of a density wave -/

open MiniCFD.Gas MiniCFD.Residual MiniCFD.Spec.Carry MiniCFD.Spec.Turn MiniCFD.Carry MiniCFD.RK

/-- The cells of a mesh with their coefficients. -/
def cellsOf {Pt : Type} {n : Nat} (m : Gas.Mesh Pt n) (u : Fin m.count → Coeff 5 n) : List (Basis Pt n × Coeff 5 n) :=
  List.ofFn fun p => (m.basis p, u p)

/-- **C142.** For a density wave linear along the flow (C141) the error is zero after every step. -/
theorem wave_error {m : Gas.Mesh Pt n} {c : Conditions Pt 5} {γ : ℝ} (hγ : 1 < γ) (hr : Regular m c)
    (hs : Consistent m γ) {v : Fin 3 → ℝ} {P : ℝ} (hP : 0 < P) {ρ s : Pt → ℝ} (hd : Derivative m v ρ s)
    (hd' : Derivative m v s fun _ => 0) (hc : Fits m v c fun x t => carried γ v P (ρ x - t * s x)) (k : Stepper)
    (t dt : ℝ) (N : Nat) (σ : Sys ℝ (Fin m.count → Coeff 5 n))
    (hu : ∀ p x, gas m p (σ.sol p) x = carried γ v P (ρ x - t * s x))
    (h0 : ∀ x, Place m x → 0 < ρ x - t * s x) (h1 : ∀ x, Place m x → 0 < ρ x - (t + dt * N) * s x) :
    measure (cellsOf m (run k (m.rates γ c) t dt N σ).sol) (fun x t => val (carried γ v P (ρ x - t * s x)))
      (t + dt * N) = 0 := by
  funext r
  rw [measure_spec]
  have e : ∀ y ∈ (cellsOf m (run k (m.rates γ c) t dt N σ).sol).map fun cell =>
      integrate (fun x => |(∑ i, cell.2 r i * basisValues cell.1 x i) - val (carried γ v P (ρ x - (t + dt * N) * s x)) r|)
        cell.1.rule, y = 0 := by
    intro y hy
    obtain ⟨cell, hcell, rfl⟩ := List.mem_map.1 hy
    obtain ⟨p, rfl⟩ := List.mem_ofFn.1 hcell
    have hz : ∀ x, (∑ i, (run k (m.rates γ c) t dt N σ).sol p r i * basisValues (m.basis p) x i) -
        val (carried γ v P (ρ x - (t + dt * N) * s x)) r = 0 := by
      intro x
      rw [← wave_runs hγ hr hs hP hd hd' hc k t dt N σ hu h0 h1 p x, gas, Turn.val_tup, sub_self]
    simp only [hz, integrate_eq]
    simp
  exact List.sum_eq_zero e

/-! ### Examples -/

/-- The constant three on a cell with two Gaussian points, measured against `x t`. -/
noncomputable def sample : List (Basis ℝ 0 × Coeff 1 0) :=
  [(⟨⟨fun _ _ => 1⟩, fun _ _ => 1, [(1, 2), (5, 1 / 2)]⟩, fun _ _ => 3)]

theorem sample_weighted : Weighted sample := by
  intro cell hc xw hx
  obtain rfl := List.eq_of_mem_singleton hc
  rcases List.mem_cons.1 hx with rfl | hx
  · norm_num
  · obtain rfl := List.eq_of_mem_singleton hx
    norm_num

example : measure sample (fun x t _ => x * t) 2 0 = 2 * 1 + 7 * (1 / 2) := by
  rw [measure_spec]
  have h : ∀ x : ℝ, basisValues (n := 0) ⟨⟨fun _ _ => 1⟩, fun _ _ => 1, [(1, 2), (5, 1 / 2)]⟩ x 0 = 1 := by
    intro x
    simp [basisValues, fullEval]
  simp only [sample, List.map_cons, List.map_nil, List.sum_cons, List.sum_nil, integrate_eq, Fin.sum_univ_succ, h]
  norm_num [abs_of_neg, abs_of_pos]

/-- Two processes with a copy of the cell each. -/
example : reduce [sample, sample] (fun x t _ => x * t) 2 = measure (sample ++ sample) (fun x t _ => x * t) 2 :=
  reduce_whole (by simp) _ _

/-- The error of the constant three against three is zero, against four it is not. -/
example : measure sample (fun _ _ _ => 3) 0 0 = 0 ∧ measure sample (fun _ _ _ => 4) 0 0 ≠ 0 := by
  have h : ∀ x : ℝ, basisValues (n := 0) ⟨⟨fun _ _ => 1⟩, fun _ _ => 1, [(1, 2), (5, 1 / 2)]⟩ x 0 = 1 := by
    intro x
    simp [basisValues, fullEval]
  constructor
  · rw [measure_zero sample_weighted]
    intro cell hc xw hx
    obtain rfl := List.eq_of_mem_singleton hc
    simp only [Fin.sum_univ_succ, h]
    norm_num
  · rw [Ne, measure_zero sample_weighted]
    intro hz
    have := hz _ (List.mem_singleton_self _) (1, 2) (List.mem_cons_self ..)
    simp only [Fin.sum_univ_succ, h] at this
    norm_num at this

/-- The thinning stream of C141 after a hundred steps with HLLC. -/
example (k : Stepper) (σ : Sys ℝ (Fin 2 → Coeff 5 1))
    (hu : ∀ p x, gas (line (Euler.upwind (7 / 5) (Euler.hllc (7 / 5)))) p (σ.sol p) x =
      carried (7 / 5) speed 1 (5 + x)) :
    measure (cellsOf (line (Euler.upwind (7 / 5) (Euler.hllc (7 / 5))))
      (run k ((line (Euler.upwind (7 / 5) (Euler.hllc (7 / 5)))).rates (7 / 5) (stream (7 / 5))) 0 (1 / 50) 100 σ).sol)
      (fun x t => val (carried (7 / 5) speed 1 (thick x - t * 2))) (0 + 1 / 50 * (100 : Nat)) = 0 := by
  have hr := line_regular (f := Euler.upwind (7 / 5) (Euler.hllc (7 / 5))) (γ := 7 / 5)
  exact wave_error (m := line (Euler.upwind (7 / 5) (Euler.hllc (7 / 5)))) (γ := 7 / 5) (by norm_num) hr
    (hllc_carries (by norm_num) hr fun g hg q hq => by
      obtain rfl := List.eq_of_mem_singleton hg
      obtain rfl := List.eq_of_mem_singleton hq
      rfl) one_pos line_thick line_thin line_fits k 0 (1 / 50) 100 σ (fun p x => by rw [hu p x]; simp [thick])
    (fun x hx => by
      have := line_places hx
      simp only [thick]
      linarith)
    (fun x hx => by
      have := line_places hx
      simp only [thick]
      push_cast
      linarith)

end MiniCFD.Measure
