import Verif.Props.Weno
import Mathlib.Order.Bounds.Basic
import Mathlib.Tactic.FinCases

/-!
# C64, C65: the smoothness indicator and the troubled-cell indicator
-/

namespace MiniCFD.Weno

open MiniCFD.Ortho MiniCFD.Projection MiniCFD.Spec.Taylor MiniCFD.Spec.Weno

variable {K : Nat}

/-! ### C65: the smoothness indicator -/

theorem measure_nonneg {N : Nat} (l : Linear N) : 0 ≤ Ortho.measure l :=
  div_nonneg zero_le_one (mul_self_nonneg _)

/-- The polynomial of one component in coordinates relative to the centre. -/
noncomputable def local1 (c : Fin 4 → ℝ) (x y z : ℝ) : ℝ := ∑ i, c i * Taylor.value31 x y z i
noncomputable def local2 (c : Fin 10 → ℝ) (x y z : ℝ) : ℝ := ∑ i, c i * Taylor.value32 x y z i
noncomputable def local3 (c : Fin 20 → ℝ) (x y z : ℝ) : ℝ := ∑ i, c i * Taylor.value33 x y z i

/-- The order of a derivative by its index. -/
theorem order_expo (i : Fin 19) : order (expo3 i.succ) = if (i : Nat) < 3 then 1 else if (i : Nat) < 9 then 2 else 3 := by
  revert i; decide

theorem exponent_one : (2 * ((1 : Nat) : ℝ) / 3 - 1) = 2 / 3 - 1 := by norm_num
theorem exponent_two : (2 * ((2 : Nat) : ℝ) / 3 - 1) = 4 / 3 - 1 := by norm_num
theorem exponent_three : (2 * ((3 : Nat) : ℝ) / 3 - 1) = 1 := by norm_num

/-- Terms of the indicator by the integrals that the code computes. -/
theorem term_eq (f : ℝ → ℝ → ℝ → ℝ) (center : Point) (rule : Rule Point) (V : ℝ) (i : Fin 19) (g : Point → ℝ)
    (h : ∀ p : Point, g p = mixed (expo3 i.succ) f (p.1 - center.1) (p.2.1 - center.2.1) (p.2.2 - center.2.2)) :
    term f center rule V (expo3 i.succ)
      = (if (i : Nat) < 3 then V ^ ((2 : ℝ) / 3 - 1) else if (i : Nat) < 9 then V ^ ((4 : ℝ) / 3 - 1) else V)
        * integrate (fun p => g p * g p) rule := by
  unfold term
  rw [order_expo]
  congr 1
  · split
    · rw [exponent_one]
    · split
      · rw [exponent_two]
      · rw [exponent_three, Real.rpow_one]
  · refine integrate_congr fun pw _ => ?_
    rw [h, sq]

theorem sum_nine (Q : Fin 10 → ℝ) (u v w : ℝ) :
    ∑ i : Fin 9, (if (i : Nat) < 3 then u else if (i : Nat) < 9 then v else w) * Q i.succ
      = (Q 1 + Q 2 + Q 3) * u + Q 4 * v + Q 5 * v + Q 6 * v + Q 7 * v + Q 8 * v + Q 9 * v := by
  simp only [Fin.sum_univ_succ, Fin.sum_univ_zero, Fin.val_succ, Fin.val_zero, Fin.succ_zero_eq_one,
    Fin.succ_one_eq_two, Fin.reduceSucc, Nat.reduceAdd, Nat.reduceLT, if_true, if_false, zero_add]
  ring

theorem sum_nineteen (Q : Fin 20 → ℝ) (u v w : ℝ) :
    ∑ i : Fin 19, (if (i : Nat) < 3 then u else if (i : Nat) < 9 then v else w) * Q i.succ
      = (Q 1 + Q 2 + Q 3) * u + Q 4 * v + Q 5 * v + Q 6 * v + Q 7 * v + Q 8 * v + Q 9 * v
      + Q 10 * w + Q 11 * w + Q 12 * w + Q 13 * w + Q 14 * w + Q 15 * w + Q 16 * w + Q 17 * w
      + Q 18 * w + Q 19 * w := by
  simp only [Fin.sum_univ_succ, Fin.sum_univ_zero, Fin.val_succ, Fin.val_zero, Fin.succ_zero_eq_one,
    Fin.succ_one_eq_two, Fin.reduceSucc, Nat.reduceAdd, Nat.reduceLT, if_true, if_false, zero_add]
  ring

/-- **C65.** Degree two: the smoothness is the indicator of Jiang and Shu. -/
theorem smoothness2_correct (center : Point) (b : Basis Point 9) (coeff : Coeff K 9) (r : Fin K) :
    smoothness (taylor2 center) b coeff r
      = indicator 9 (by norm_num) (local2 (coeffOnTaylor b coeff r)) center b.rule (Ortho.measure b.linear) := by
  have h : ∀ i : Fin 9, _ := fun i => term_eq (local2 (coeffOnTaylor b coeff r)) center b.rule
    (Ortho.measure b.linear) (i.castLE (by norm_num)) _
    (fun p => Taylor.pdv32_correct (coeffOnTaylor b coeff r) (p.1 - center.1) (p.2.1 - center.2.1)
      (p.2.2 - center.2.2) i.succ (Fin.succ_ne_zero _))
  have h' : ∀ i : Fin 9, (i.castLE (by norm_num) : Fin 19).succ = i.succ.castLE (by norm_num) := fun i => rfl
  unfold indicator
  simp only [h'] at h
  simp only [h]
  exact (sum_nine (fun j => integrate (fun p => (taylor2 center).pdv (coeffOnTaylor b coeff r) p j
    * (taylor2 center).pdv (coeffOnTaylor b coeff r) p j) b.rule) _ _ _).symm

/-- **C65.** Degree one: the smoothness misses the factor `V^(-1/3)`. -/
theorem smoothness1_scaled (center : Point) (b : Basis Point 3) (coeff : Coeff K 3) (r : Fin K)
    (hV : 0 < Ortho.measure b.linear) :
    smoothness (taylor1 center) b coeff r = Ortho.measure b.linear ^ ((1 : ℝ) / 3)
      * indicator 3 (by norm_num) (local1 (coeffOnTaylor b coeff r)) center b.rule (Ortho.measure b.linear) := by
  have h : ∀ i : Fin 3, _ := fun i => term_eq (local1 (coeffOnTaylor b coeff r)) center b.rule
    (Ortho.measure b.linear) (i.castLE (by norm_num)) _
    (fun p => Taylor.pdv31_correct (coeffOnTaylor b coeff r) (p.1 - center.1) (p.2.1 - center.2.1)
      (p.2.2 - center.2.2) i.succ (Fin.succ_ne_zero _))
  have h' : ∀ i : Fin 3, (i.castLE (by norm_num) : Fin 19).succ = i.succ.castLE (by norm_num) := fun i => rfl
  unfold indicator
  simp only [h'] at h
  simp only [h]
  have hp : Ortho.measure b.linear ^ ((1 : ℝ) / 3) * Ortho.measure b.linear ^ ((2 : ℝ) / 3 - 1) = 1 := by
    rw [← Real.rpow_add hV]; norm_num
  simp only [Fin.val_castLE, Fin.is_lt, if_true, ← Finset.mul_sum]
  rw [← mul_assoc, hp, one_mul]
  simp only [smoothness, taylor1, Fin.sum_univ_succ, Fin.sum_univ_zero]
  simp [Fin.succ]
  ring

/-- **C65.** Degree three: the smoothness differs from the indicator by the error in the second derivative
along `y`, which the code takes for half of it plus the second derivative along `x`. -/
theorem smoothness3_error_partial (center : Point) (b : Basis Point 19) (coeff : Coeff K 19) (r : Fin K) :
    smoothness (taylor3 center) b coeff r
      = indicator 19 (by norm_num) (local3 (coeffOnTaylor b coeff r)) center b.rule (Ortho.measure b.linear)
        + Ortho.measure b.linear ^ ((4 : ℝ) / 3 - 1) *
          (integrate (fun p =>
              (mixed (0, 2, 0) (local3 (coeffOnTaylor b coeff r)) (p.1 - center.1) (p.2.1 - center.2.1)
                  (p.2.2 - center.2.2) / 2
                + mixed (2, 0, 0) (local3 (coeffOnTaylor b coeff r)) (p.1 - center.1) (p.2.1 - center.2.1)
                  (p.2.2 - center.2.2)) ^ 2) b.rule
            - integrate (fun p => mixed (0, 2, 0) (local3 (coeffOnTaylor b coeff r)) (p.1 - center.1)
                (p.2.1 - center.2.1) (p.2.2 - center.2.2) ^ 2) b.rule) := by
  set c := coeffOnTaylor b coeff r with hc
  set V := Ortho.measure b.linear with hV
  have h : ∀ i : Fin 19, i ≠ 6 → _ := fun i hi => term_eq (local3 c) center b.rule V i _
    (fun p => Taylor.pdv33_correct_partial c (p.1 - center.1) (p.2.1 - center.2.1)
      (p.2.2 - center.2.2) i.succ (Fin.succ_ne_zero _) (by
        intro h7; exact hi (Fin.succ_injective _ (by rw [h7]; rfl))))
  have h6 := term_eq (local3 c) center b.rule V 6 _ (fun p => rfl)
  have hyy : integrate (fun p : Point => Taylor.pdv33 c (p.1 - center.1) (p.2.1 - center.2.1)
      (p.2.2 - center.2.2) 7 * Taylor.pdv33 c (p.1 - center.1) (p.2.1 - center.2.1) (p.2.2 - center.2.2) 7) b.rule
      = integrate (fun p =>
              (mixed (0, 2, 0) (local3 c) (p.1 - center.1) (p.2.1 - center.2.1)
                  (p.2.2 - center.2.2) / 2
                + mixed (2, 0, 0) (local3 c) (p.1 - center.1) (p.2.1 - center.2.1)
                  (p.2.2 - center.2.2)) ^ 2) b.rule :=
    integrate_congr fun pw _ => by rw [Taylor.pdv33_yy, sq]; rfl
  have h6' : integrate (fun p : Point => mixed (0, 2, 0) (local3 c) (p.1 - center.1)
                (p.2.1 - center.2.1) (p.2.2 - center.2.2) ^ 2) b.rule
      = integrate (fun p : Point => mixed (expo3 (Fin.succ 6)) (local3 c) (p.1 - center.1)
                (p.2.1 - center.2.1) (p.2.2 - center.2.2) * mixed (expo3 (Fin.succ 6)) (local3 c) (p.1 - center.1)
                (p.2.1 - center.2.1) (p.2.2 - center.2.2)) b.rule :=
    integrate_congr fun pw _ => by rw [sq]; rfl
  rw [h6', ← hyy]
  have hs : ∀ i : Fin 19, (i.succ.castLE (by norm_num) : Fin 20) = i.succ := fun i => rfl
  unfold indicator
  simp only [hs]
  rw [← Finset.add_sum_erase _ _ (Finset.mem_univ (6 : Fin 19)), h6]
  rw [Finset.sum_congr rfl fun i hi => h i (Finset.ne_of_mem_erase hi)]
  have hsum := Finset.add_sum_erase Finset.univ (fun i : Fin 19 =>
    (if (i : Nat) < 3 then V ^ ((2 : ℝ) / 3 - 1) else if (i : Nat) < 9 then V ^ ((4 : ℝ) / 3 - 1) else V)
        * integrate (fun p : Point => Taylor.pdv33 c (p.1 - center.1) (p.2.1 - center.2.1)
      (p.2.2 - center.2.2) i.succ * Taylor.pdv33 c (p.1 - center.1) (p.2.1 - center.2.1)
      (p.2.2 - center.2.2) i.succ) b.rule) (Finset.mem_univ (6 : Fin 19))
  rw [← eq_sub_iff_add_eq'] at hsum
  rw [hsum]
  have h19 := sum_nineteen (fun j => integrate (fun p => (taylor3 center).pdv c p j
    * (taylor3 center).pdv c p j) b.rule) (V ^ ((2 : ℝ) / 3 - 1)) (V ^ ((4 : ℝ) / 3 - 1)) V
  have hsm : smoothness (taylor3 center) b coeff r = _ := h19.symm
  rw [hsm]
  simp only [taylor3, show ((6 : Fin 19) : Nat) = 6 from rfl, show (Fin.succ 6 : Fin 20) = 7 from rfl,
    Nat.reduceLT, if_true, if_false]
  ring

/-- **C65.** So the indicator of degree three is wrong for `x²` on every cell. -/
theorem smoothness3_wrong (center : Point) (b : Basis Point 19) (coeff : Coeff K 19) (r : Fin K)
    (hc : coeffOnTaylor b coeff r = Taylor.xSquared) (hV : 0 < Ortho.measure b.linear)
    (hr : 0 < integrate (fun _ => 1) b.rule) :
    smoothness (taylor3 center) b coeff r
      ≠ indicator 19 (by norm_num) (local3 (coeffOnTaylor b coeff r)) center b.rule (Ortho.measure b.linear) := by
  rw [smoothness3_error_partial, hc]
  have hxx : ∀ x y z : ℝ, mixed (2, 0, 0) (local3 Taylor.xSquared) x y z = 2 := by
    intro x y z
    have := Taylor.mixed_poly expo3 Taylor.xSquared (2, 0, 0) x y z
    have h : local3 Taylor.xSquared = poly expo3 Taylor.xSquared := by
      funext x y z
      simp only [local3, poly, Taylor.value33_monomials]
    rw [h, this]
    simp [Taylor.xSquared, expo3]
  have hyy : ∀ x y z : ℝ, mixed (0, 2, 0) (local3 Taylor.xSquared) x y z = 0 := by
    intro x y z
    have := Taylor.mixed_poly expo3 Taylor.xSquared (0, 2, 0) x y z
    have h : local3 Taylor.xSquared = poly expo3 Taylor.xSquared := by
      funext x y z
      simp only [local3, poly, Taylor.value33_monomials]
    rw [h, this]
    simp [Taylor.xSquared, expo3]
  simp only [hxx, hyy]
  have h4 : integrate (fun _ : Point => ((0 : ℝ) / 2 + 2) ^ 2) b.rule = 4 * integrate (fun _ => 1) b.rule := by
    rw [← integrate_smul]
    norm_num
  have h0 : integrate (fun _ : Point => (0 : ℝ) ^ 2) b.rule = 0 := by
    have := integrate_smul 0 (fun _ : Point => (1 : ℝ)) b.rule
    simp only [zero_mul] at this
    refine Eq.trans ?_ this
    norm_num
  rw [h4, h0]
  have := mul_pos (Real.rpow_pos_of_pos hV ((4 : ℝ) / 3 - 1)) (by linarith : 0 < 4 * integrate (fun _ => 1) b.rule - 0)
  intro h
  linarith

/-! #### It is not negative, as C43 requires -/

theorem smoothness0_nonneg (center : Point) (b : Basis Point 0) (coeff : Coeff K 0) (r : Fin K) :
    0 ≤ smoothness (taylor0 center) b coeff r := le_refl _

theorem smoothness1_nonneg (center : Point) (b : Basis Point 3) (hw : Positive b.rule) (coeff : Coeff K 3)
    (r : Fin K) : 0 ≤ smoothness (taylor1 center) b coeff r := by
  have hq : ∀ j, 0 ≤ integrate (fun p => (taylor1 center).pdv (coeffOnTaylor b coeff r) p j
    * (taylor1 center).pdv (coeffOnTaylor b coeff r) p j) b.rule :=
    fun j => integrate_nonneg hw fun p => mul_self_nonneg _
  exact add_nonneg (add_nonneg (hq 1) (hq 2)) (hq 3)

theorem smoothness2_nonneg (center : Point) (b : Basis Point 9) (hw : Positive b.rule) (coeff : Coeff K 9)
    (r : Fin K) : 0 ≤ smoothness (taylor2 center) b coeff r := by
  rw [smoothness2_correct]
  exact Finset.sum_nonneg fun i _ => mul_nonneg (Real.rpow_nonneg (measure_nonneg _) _)
    (integrate_nonneg hw fun p => sq_nonneg _)

theorem smoothness3_nonneg (center : Point) (b : Basis Point 19) (hw : Positive b.rule) (coeff : Coeff K 19)
    (r : Fin K) : 0 ≤ smoothness (taylor3 center) b coeff r := by
  have hq : ∀ j, 0 ≤ integrate (fun p => (taylor3 center).pdv (coeffOnTaylor b coeff r) p j
    * (taylor3 center).pdv (coeffOnTaylor b coeff r) p j) b.rule :=
    fun j => integrate_nonneg hw fun p => mul_self_nonneg _
  have hV := measure_nonneg b.linear
  have h := sum_nineteen (fun j => integrate (fun p => (taylor3 center).pdv (coeffOnTaylor b coeff r) p j
    * (taylor3 center).pdv (coeffOnTaylor b coeff r) p j) b.rule) (Ortho.measure b.linear ^ ((2 : ℝ) / 3 - 1))
    (Ortho.measure b.linear ^ ((4 : ℝ) / 3 - 1)) (Ortho.measure b.linear)
  refine le_of_le_of_eq ?_ h
  refine Finset.sum_nonneg fun i _ => mul_nonneg ?_ (hq _)
  split
  · exact Real.rpow_nonneg hV _
  · split
    · exact Real.rpow_nonneg hV _
    · exact hV

/-! ### C64: the troubled-cell indicator -/

theorem foldl_max (l : List (Value K × Value K)) (i : Fin K) (m : ℝ) :
    IsLeast {x | m ≤ x ∧ ∀ a ∈ l, |a.2 i| ≤ x} (l.foldl (fun m a => max m |a.2 i|) m) := by
  induction l generalizing m with
  | nil => exact ⟨⟨le_refl _, by simp⟩, fun x hx => hx.1⟩
  | cons a l ih =>
    obtain ⟨⟨h1, h2⟩, h3⟩ := ih (max m |a.2 i|)
    rw [List.foldl_cons]
    refine ⟨⟨le_trans (le_max_left _ _) h1, ?_⟩, ?_⟩
    · intro a' ha'
      rcases List.mem_cons.1 ha' with rfl | h
      · exact le_trans (le_max_right _ _) h1
      · exact h2 a' h
    · intro x hx
      exact h3 ⟨max_le hx.1 (hx.2 a (List.mem_cons_self ..)), fun a' h => hx.2 a' (List.mem_cons_of_mem _ h)⟩

/-- The reference of a component is the largest of the averages' absolute values, but at least `1e-9`. -/
theorem maxAbs_least (c : Patch K) (i : Fin K) :
    IsLeast {x | 1e-9 ≤ x ∧ |c.average i| ≤ x ∧ ∀ a ∈ c.adj, |a.2 i| ≤ x} (maxAbs c i) := by
  obtain ⟨⟨h1, h2⟩, h3⟩ := foldl_max c.adj i (max 1e-9 |c.average i|)
  exact ⟨⟨le_trans (le_max_left _ _) h1, le_trans (le_max_right _ _) h1, h2⟩,
    fun x hx => h3 ⟨max_le hx.1 hx.2.1, hx.2.2⟩⟩

theorem maxAbs_pos (c : Patch K) (i : Fin K) : 0 < maxAbs c i :=
  lt_of_lt_of_le (by norm_num) (maxAbs_least c i).1.1

theorem sumAbs_eq (c : Patch K) (i : Fin K) :
    sumAbs c i = (c.adj.map fun a => |c.value i - a.1 i|).sum := by
  have : ∀ (l : List (Value K × Value K)) (s : ℝ), l.foldl (fun s a => s + |c.value i - a.1 i|) s
      = s + (l.map fun a => |c.value i - a.1 i|).sum := by
    intro l
    induction l with
    | nil => simp
    | cons a l ih => intro s; rw [List.foldl_cons, ih, List.map_cons, List.sum_cons]; ring
  rw [sumAbs, this, zero_add]

theorem sumAbs_nonneg (c : Patch K) (i : Fin K) : 0 ≤ sumAbs c i := by
  rw [sumAbs_eq]
  refine List.sum_nonneg fun x hx => ?_
  obtain ⟨a, _, rfl⟩ := List.mem_map.1 hx
  exact abs_nonneg _

/-- **C64.** A cell with neighbours is troubled exactly when, for one of the components, the mean jump at its
centre exceeds the largest average times `h^((P+1)/2)` (three times that from degree three on). -/
theorem troubled_iff (P D : Nat) (comps : List (Fin K)) (c : Patch K) (hV : 0 < c.volume) (hadj : c.adj ≠ []) :
    isNotSmooth P D comps c = true ↔ ∃ i ∈ comps, ∃ m,
      IsLeast {x | 1e-9 ≤ x ∧ |c.average i| ≤ x ∧ ∀ a ∈ c.adj, |a.2 i| ≤ x} m ∧
      (c.adj.map fun a => |c.value i - a.1 i|).sum / c.adj.length
        > (if P < 3 then 1 else 3) * m * (c.volume ^ ((1 : ℝ) / D)) ^ (((P : ℝ) + 1) / 2) := by
  have hn : (0 : ℝ) < c.adj.length := by
    exact_mod_cast List.length_pos_iff.2 hadj
  have hp : (c.volume ^ ((1 : ℝ) / D)) ^ (((P : ℝ) + 1) / 2) = c.volume ^ (((P : ℝ) + 1) / 2 / D) := by
    rw [← Real.rpow_mul hV.le]
    congr 1
    ring
  have hd : 0 < c.volume ^ (((P : ℝ) + 1) / 2 / D) * c.adj.length := mul_pos (Real.rpow_pos_of_pos hV _) hn
  unfold isNotSmooth
  simp only [List.any_eq_true, if_neg hd.ne', decide_eq_true_eq]
  refine exists_congr fun i => and_congr_right fun _ => ?_
  have hm := maxAbs_pos c i
  have key : (sumAbs c i / maxAbs c i / (c.volume ^ (((P : ℝ) + 1) / 2 / D) * c.adj.length)
      > if P < 3 then 1 else 3) ↔ (c.adj.map fun a => |c.value i - a.1 i|).sum / c.adj.length
        > (if P < 3 then 1 else 3) * maxAbs c i * (c.volume ^ ((1 : ℝ) / D)) ^ (((P : ℝ) + 1) / 2) := by
    rw [hp, ← sumAbs_eq, gt_iff_lt, gt_iff_lt, lt_div_iff₀ hd, lt_div_iff₀ hm, lt_div_iff₀ hn]
    constructor <;> intro h <;> refine lt_of_eq_of_lt ?_ h <;> ring
  constructor
  · exact fun h => ⟨_, maxAbs_least c i, key.1 h⟩
  · rintro ⟨m, hl, h⟩
    exact key.2 ((maxAbs_least c i).unique hl ▸ h)

/-- **C64.** A cell whose neighbours agree with it at its centre is never troubled, and neither is a cell
without neighbours. -/
theorem agreeing_not_troubled (P D : Nat) (comps : List (Fin K)) (c : Patch K)
    (h : ∀ a ∈ c.adj, ∀ i ∈ comps, a.1 i = c.value i) : isNotSmooth P D comps c = false := by
  have h0 : ∀ i ∈ comps, sumAbs c i = 0 := by
    intro i hi
    rw [sumAbs_eq]
    refine List.sum_eq_zero fun x hx => ?_
    obtain ⟨a, ha, rfl⟩ := List.mem_map.1 hx
    rw [h a ha i hi, sub_self, abs_zero]
  unfold isNotSmooth
  simp only [List.any_eq_false]
  intro i hi
  rw [h0 i hi, zero_div, zero_div]
  split
  · simp
  · rw [decide_eq_true_eq, not_lt]
    split <;> norm_num

/-- **C64.** The verdict depends on the named components only. -/
theorem troubled_congr (P D : Nat) (comps : List (Fin K)) (c d : Patch K) (hV : c.volume = d.volume)
    (h1 : ∀ i ∈ comps, c.average i = d.average i) (h2 : ∀ i ∈ comps, c.value i = d.value i)
    (h3 : List.Forall₂ (fun a a' => ∀ i ∈ comps, a.1 i = a'.1 i ∧ a.2 i = a'.2 i) c.adj d.adj) :
    isNotSmooth P D comps c = isNotSmooth P D comps d := by
  have hs : ∀ i ∈ comps, ∀ s, c.adj.foldl (fun s a => s + |c.value i - a.1 i|) s
      = d.adj.foldl (fun s a => s + |d.value i - a.1 i|) s := by
    intro i hi
    rw [h2 i hi]
    clear h1 h2
    generalize c.adj = l at h3
    generalize d.adj = l' at h3
    induction h3 with
    | nil => intro s; rfl
    | cons ha _ ih => intro s; rw [List.foldl_cons, List.foldl_cons, (ha i hi).1, ih]
  have hm : ∀ i ∈ comps, ∀ s, c.adj.foldl (fun m a => max m |a.2 i|) s
      = d.adj.foldl (fun m a => max m |a.2 i|) s := by
    intro i hi
    clear h1 h2 hs
    generalize c.adj = l at h3
    generalize d.adj = l' at h3
    induction h3 with
    | nil => intro s; rfl
    | cons ha _ ih => intro s; rw [List.foldl_cons, List.foldl_cons, (ha i hi).2, ih]
  have hl := h3.length_eq
  unfold isNotSmooth
  simp only [hV, hl]
  rw [Bool.eq_iff_iff]
  simp only [List.any_eq_true]
  refine exists_congr fun i => and_congr_right fun hi => ?_
  have e1 : sumAbs c i = sumAbs d i := hs i hi 0
  have e2 : maxAbs c i = maxAbs d i := by
    unfold maxAbs
    rw [h1 i hi, hm i hi]
  rw [e1, e2]

/-- **C64.** The order in which the neighbours are stored does not matter. -/
theorem troubled_perm (P D : Nat) (comps : List (Fin K)) (c : Patch K) (adj : List (Value K × Value K))
    (h : c.adj.Perm adj) : isNotSmooth P D comps c = isNotSmooth P D comps { c with adj := adj } := by
  have e1 : ∀ i, sumAbs c i = sumAbs { c with adj := adj } i := by
    intro i
    rw [sumAbs_eq, sumAbs_eq]
    exact (h.map _).sum_eq
  have e2 : ∀ i, maxAbs c i = maxAbs { c with adj := adj } i := by
    intro i
    refine (maxAbs_least c i).unique ?_
    have := maxAbs_least { c with adj := adj } i
    simp only [← h.mem_iff] at this
    exact this
  unfold isNotSmooth
  simp only [e1, e2, h.length_eq]

/-- Multiply a patch by a number, as a change of units does. -/
def Patch.times (q : ℝ) (c : Patch K) : Patch K where
  average i := q * c.average i
  value i := q * c.value i
  volume := c.volume
  adj := c.adj.map fun a => (fun i => q * a.1 i, fun i => q * a.2 i)

/-- **C64.** A change of units does not matter as long as the average stays above the floor `1e-9`. -/
theorem troubled_scale (P D : Nat) (comps : List (Fin K)) (c : Patch K) (q : ℝ)
    (h1 : ∀ i ∈ comps, 1e-9 ≤ |c.average i|) (h2 : ∀ i ∈ comps, 1e-9 ≤ |q * c.average i|) :
    isNotSmooth P D comps (c.times q) = isNotSmooth P D comps c := by
  have hs : ∀ i, sumAbs (c.times q) i = |q| * sumAbs c i := by
    intro i
    rw [sumAbs_eq, sumAbs_eq]
    simp only [Patch.times, List.map_map, Function.comp_def, ← mul_sub, abs_mul, List.sum_map_mul_left]
  have hm : ∀ i ∈ comps, maxAbs (c.times q) i = |q| * maxAbs c i := by
    intro i hi
    have hf : ∀ (l : List (Value K × Value K)) (s : ℝ),
        (l.map fun a : Value K × Value K => ((fun i => q * a.1 i, fun i => q * a.2 i) : Value K × Value K)).foldl
          (fun m a => max m |a.2 i|) (|q| * s) = |q| * l.foldl (fun m a => max m |a.2 i|) s := by
      intro l
      induction l with
      | nil => intro s; rfl
      | cons a l ih =>
        intro s
        rw [List.map_cons, List.foldl_cons, List.foldl_cons, ← ih, abs_mul, mul_max_of_nonneg _ _ (abs_nonneg q)]
    unfold maxAbs
    rw [max_eq_right (h1 i hi)]
    simp only [Patch.times]
    rw [max_eq_right (h2 i hi), abs_mul, hf]
  have hq : ∀ i ∈ comps, 0 < |q| := by
    intro i hi
    rcases eq_or_ne q 0 with rfl | h
    · have := h2 i hi
      norm_num at this
    · exact abs_pos.2 h
  unfold isNotSmooth
  simp only [show (c.times q).volume = c.volume from rfl, show (c.times q).adj.length = c.adj.length by
    simp [Patch.times]]
  rw [Bool.eq_iff_iff]
  simp only [List.any_eq_true]
  refine exists_congr fun i => and_congr_right fun hi => ?_
  have hqi := hq i hi
  rw [hs, hm i hi, mul_div_mul_left _ _ hqi.ne']
  simp only [mul_pos_iff_of_pos_left hqi]

/-! ### The hypotheses are met -/

/-- Two neighbours, one of which disagrees. -/
def jump : Patch 5 := ⟨fun _ => 1, fun _ => 1, 1, [(fun _ => 1, fun _ => 1), (fun i => if i = 0 then 5 else 1, fun _ => 1)]⟩

example : isNotSmooth 2 3 [0, 4] jump = true := by
  refine (troubled_iff 2 3 [0, 4] jump (by norm_num [jump]) (by simp [jump])).2 ⟨0, by simp, 1, ?_, ?_⟩
  · exact ⟨⟨by norm_num, by norm_num [jump], by simp [jump]⟩, fun x hx => by
      have := hx.2.1; simpa [jump] using this⟩
  · simp [jump]
    norm_num

example : isNotSmooth 2 3 [0, 4] { jump with adj := [(fun i => if i = 1 then 9 else 1, fun _ => 1)] } = false :=
  agreeing_not_troubled 2 3 _ _ (by simp [jump])

/-- A basis of degree three on one point, on which the coefficients are those of the Taylor basis. -/
noncomputable def plain : Basis Point 19 := ⟨Linear.init 20, fun _ _ => 0, [((0, 0, 0), 1)]⟩

example : smoothness (K := 1) (taylor3 (0, 0, 0)) plain (fun _ => Taylor.xSquared) 0
    ≠ indicator 19 (by norm_num) (local3 (coeffOnTaylor (K := 1) plain (fun _ => Taylor.xSquared) 0)) (0, 0, 0)
      plain.rule (Ortho.measure plain.linear) := by
  refine smoothness3_wrong _ _ _ _ ?_ ?_ ?_
  · funext j
    simp only [coeffOnTaylor, plain, Linear.init, Fin.val_inj]
    simp
  · simp [Ortho.measure, plain, Linear.init]
  · simp [plain, integrate]

/-! #### A cube of unit volume, degree one, neighbours of different slopes -/

/-- The corners of a cube with equal weights; the functions `1, x, y, z` are orthonormal there. -/
noncomputable def cube : Basis Point 3 where
  linear := Linear.init 4
  taylor p := fun j => if j = 0 then 1 else if j = 1 then p.1 else if j = 2 then p.2.1 else p.2.2
  rule := [((1, 1, 1), 1 / 8), ((1, 1, -1), 1 / 8), ((1, -1, 1), 1 / 8), ((1, -1, -1), 1 / 8),
    ((-1, 1, 1), 1 / 8), ((-1, 1, -1), 1 / 8), ((-1, -1, 1), 1 / 8), ((-1, -1, -1), 1 / 8)]

theorem cube_values (p : Point) (i : Fin 4) : basisValues cube p i = cube.taylor p i := by
  simp only [basisValues, fullEval, cube, Linear.init]
  rw [Finset.sum_range]
  simp only [Fin.val_inj, ite_mul, one_mul, zero_mul, Finset.sum_ite_eq, Finset.mem_univ, if_true]

theorem cube_sound : Sound cube := by
  refine ⟨fun i j => ?_, fun p => ?_⟩
  · simp only [cube_values]
    fin_cases i <;> fin_cases j <;> simp [cube, integrate] <;> norm_num
  · rw [cube_values]
    simp [cube, Linear.init]

theorem cube_positive : Positive cube.rule := by
  intro pw h
  simp only [cube, List.mem_cons, List.not_mem_nil, or_false] at h
  rcases h with rfl | rfl | rfl | rfl | rfl | rfl | rfl | rfl <;> norm_num

/-- Three neighbours, `w0 = 0.1`: the limiter succeeds and keeps the average. -/
example (own : Coeff 5 3) : ∃ new,
    lazyLimit (taylor1 (0, 0, 0)) cube 0.1 1e-6 own
      [fun p _ => 3 * p.1 + 1, fun p _ => p.2.1 * p.2.2, fun _ _ => 7] = some new ∧
    average cube new = average cube own := by
  obtain ⟨new, h, -⟩ := lazy_convex (fun c r => smoothness1_nonneg (0, 0, 0) cube cube_positive c r)
    (by norm_num : (0 : ℝ) < 1e-6) (by norm_num : (0 : ℝ) < 0.1) own
    [fun p _ => 3 * p.1 + 1, fun p _ => p.2.1 * p.2.2, fun _ _ => 7] (by norm_num)
  exact ⟨new, h, lazy_average cube_sound h⟩

/-- The characteristic version with one face and the identity for eigenvectors. -/
example (own : Coeff 5 3) : ∃ new,
    eigenLimit (taylor1 (0, 0, 0)) cube 0.1 1e-6 own [fun p _ => 3 * p.1 + 1] [⟨fun _ => 1, fun _ => 1, 2⟩]
      = some new ∧ average cube new = average cube own := by
  obtain ⟨new, h⟩ := eigen_defined (fun c r => smoothness1_nonneg (0, 0, 0) cube cube_positive c r)
    (by norm_num : (0 : ℝ) < 1e-6) (by norm_num : (0 : ℝ) < 0.1) own [fun p _ => 3 * p.1 + 1]
    [⟨fun _ => 1, fun _ => 1, 2⟩] rfl (by norm_num) (by simp) (by simp)
  exact ⟨new, h, eigen_average cube_sound (by simp) h⟩

end MiniCFD.Weno
