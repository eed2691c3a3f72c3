import Verif.Model.Projection
import Verif.Props.Ortho
import Mathlib.Tactic.Linarith
import Mathlib.Tactic.FieldSimp

/-! # Facts on projections -/

namespace MiniCFD.Projection

open MiniCFD.Ortho

variable {Pt : Type*} {n K : Nat}

/-- What the constructor of the basis guarantees. -/
structure Sound (b : Basis Pt n) : Prop where
  orth : ∀ i j, integrate (fun p => basisValues b p i * basisValues b p j) b.rule = if i = j then 1 else 0
  const : ∀ p, basisValues b p 0 = b.linear.coeff 0 0

/-- The constructor of `OrthoNormal` guarantees it for every positive rule on which the Taylor functions
are independent. -/
theorem ortho_sound (taylor : Pt → Row) (ht : ∀ p, taylor p 0 = 1) (rule : Rule Pt) (hw : Positive rule)
    (hi : Independent (n + 1) (fun p => (Linear.init (n + 1)).eval (taylor p)) rule) :
    Sound (ortho n taylor rule) := by
  have hl : (orthoNormalize (Linear.init (n + 1)) taylor rule).Lower :=
    transform_lower _ (init_lower _) _
  have hv : ∀ p (i : Fin (n + 1)), basisValues (ortho n taylor rule) p i
      = (orthoNormalize (Linear.init (n + 1)) taylor rule).eval (taylor p) i :=
    fun p i => fullEval_eq _ hl _ _ i.2
  refine ⟨fun i j => ?_, fun p => ?_⟩
  · simp only [hv]
    have := orthonormal (Linear.init (n + 1)) (init_lower _) taylor rule hw hi i j i.2 j.2
    simp only [innerprod] at this
    refine this.trans ?_
    by_cases h : i = j
    · rw [if_pos h, if_pos (congrArg Fin.val h)]
    · rw [if_neg h, if_neg fun h' => h (Fin.ext h')]
  · rw [hv]
    simp [Linear.eval, ht, ortho]

theorem integrate_mul_right (c : ℝ) (f : Pt → ℝ) (rule : Rule Pt) :
    integrate (fun p => f p * c) rule = integrate f rule * c := by
  have := integrate_smul c f rule
  simp only [mul_comm c] at this
  exact this

theorem integrate_nonneg {f : Pt → ℝ} {rule : Rule Pt} (hw : Positive rule) (hf : ∀ p, 0 ≤ f p) :
    0 ≤ integrate f rule := by
  rw [integrate_eq]
  refine List.sum_nonneg fun q hq => ?_
  obtain ⟨r, hr, rfl⟩ := List.mem_map.1 hq
  exact mul_nonneg (hf _) (hw r hr).le

theorem integrate_congr {f g : Pt → ℝ} {rule : Rule Pt} (h : ∀ pw ∈ rule, f pw.1 = g pw.1) :
    integrate f rule = integrate g rule := by
  rw [integrate_eq, integrate_eq]
  exact congrArg List.sum (List.map_congr_left fun pw hp => by rw [h pw hp])

variable {b : Basis Pt n}

theorem Sound.volume (s : Sound b) :
    b.linear.coeff 0 0 * b.linear.coeff 0 0 * integrate (fun _ => 1) b.rule = 1 := by
  have h := s.orth 0 0
  simp only [s.const, if_true] at h
  refine Eq.trans ?_ h
  rw [← integrate_smul]
  simp only [mul_one]

theorem Sound.ne (s : Sound b) : b.linear.coeff 0 0 ≠ 0 := by
  intro h
  have := s.volume
  rw [h] at this
  simp at this

theorem project_value (s : Sound b) (coeff : Coeff K n) : project b (value b coeff) = coeff := by
  funext r c
  simp only [project, value]
  have h : (fun p => (∑ i, coeff r i * basisValues b p i) * basisValues b p c)
      = fun p => ∑ i, coeff r i * (basisValues b p i * basisValues b p c) := by
    funext p
    rw [Finset.sum_mul]
    exact Finset.sum_congr rfl fun i _ => by ring
  rw [h, integrate_sum]
  simp only [integrate_smul, s.orth, mul_ite, mul_one, mul_zero, Finset.sum_ite_eq', Finset.mem_univ,
    if_true]

theorem project_congr {f g : Pt → Value K} (h : ∀ pw ∈ b.rule, f pw.1 = g pw.1) :
    project b f = project b g := by
  funext r c
  exact integrate_congr fun pw hp => by rw [h pw hp]

theorem average_project (s : Sound b) (f : Pt → Value K) (r : Fin K) :
    average b (project b f) r * integrate (fun _ => 1) b.rule = integrate (fun p => f p r) b.rule := by
  simp only [average, project, s.const]
  rw [integrate_mul_right]
  have := s.volume
  calc _ = integrate (fun p => f p r) b.rule
      * (b.linear.coeff 0 0 * b.linear.coeff 0 0 * integrate (fun _ => 1) b.rule) := by ring
    _ = _ := by rw [this, mul_one]

theorem integrate_pos_one (s : Sound b) : integrate (fun _ => 1) b.rule ≠ 0 := by
  intro h
  have := s.volume
  rw [h] at this
  simp at this

/-! ### Storage -/

theorem write_eq (coeff : Coeff K n) : write coeff = loopOrder coeff := by
  unfold write loopOrder
  rw [List.ofFn_mul, List.flatMap_def, ← List.ofFn_eq_map]
  congr 2
  funext c
  rw [← List.ofFn_eq_map]
  congr 1
  funext r
  congr 1
  · apply Fin.ext
    simp [Fin.modNat, Nat.mod_eq_of_lt r.2]
  · apply Fin.ext
    have hK : 0 < K := Nat.lt_of_le_of_lt (Nat.zero_le _) r.2
    simp [Fin.divNat, Nat.add_div_of_dvd_right, Nat.mul_div_cancel _ hK, Nat.div_eq_of_lt r.2]

theorem write_length (coeff : Coeff K n) : (write coeff).length = (n + 1) * K := by simp [write]

theorem update_eq (op : ℝ → ℝ → ℝ) (vs out rest : List ℝ) (h : vs.length = out.length) :
    update op vs (out ++ rest) = some (List.zipWith op out vs ++ rest) := by
  induction vs generalizing out with
  | nil =>
    have : out = [] := List.length_eq_zero_iff.1 h.symm
    subst this; rfl
  | cons v vs ih =>
    cases out with
    | nil => simp at h
    | cons o out =>
      rw [List.cons_append, update, ih out (by simpa using h)]
      rfl

end MiniCFD.Projection
