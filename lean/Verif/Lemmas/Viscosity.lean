import Verif.Spec.Viscosity
import Verif.Lemmas.Checkpoint
import Mathlib.Algebra.BigOperators.Ring.Finset
import Mathlib.Data.List.FinRange
import Mathlib.Tactic.Ring
import Mathlib.Tactic.Linarith

/-! Lemmas for C76. -/

namespace MiniCFD.Viscosity

open MiniCFD.LocalHex MiniCFD.DirectDG MiniCFD.Spec.Viscosity

variable {K N Q count : Nat}

theorem foldl_add {M : Type*} [AddCommMonoid M] {n : Nat} (f : Fin n → M) (a : M) :
    (List.finRange n).foldl (fun acc q => acc + f q) a = a + ∑ q, f q := by
  have h : ∀ (l : List (Fin n)) a, l.foldl (fun acc q => acc + f q) a = a + (l.map f).sum := by
    intro l
    induction l with
    | nil => intro a; simp
    | cons q l ih => intro a; rw [List.foldl_cons, ih, List.map_cons, List.sum_cons, add_assoc]
  rw [h, ← List.sum_ofFn, List.ofFn_eq_map]

theorem diffusiveFlux_apply (nu : Fin 3 → ℝ) (g : Matrix (Fin 3) (Fin K) ℝ) (r : Fin K) (d : Fin 3) :
    diffusiveFlux nu g r d = -nu d * g d r := by
  fin_cases d <;> simp [diffusiveFlux, minusFluxMatrix, addRow]

theorem outer_apply (basis : Matrix (Fin 3) (Fin N) ℝ) (u : Coeff K N) (d : Fin 3) (r : Fin K) :
    outer basis u d r = ∑ c, basis d c * u r c := by
  unfold outer
  rw [foldl_add fun m => (Matrix.of fun j k => basis j m * u k m : Matrix (Fin 3) (Fin K) ℝ), zero_add, Matrix.sum_apply]
  rfl

theorem gradientGlobal_linear (basis : Fin Q → Matrix (Fin 3) (Fin N) ℝ) :
    LinearGradient (K := K) (gradientGlobal basis) :=
  ⟨fun q d c => basis q d c, fun u q d r => by
    simp only [gradientGlobal, Matrix.mul_apply, Matrix.transpose_apply]⟩

theorem gradientLocal_linear (cache : Fin N → Cache) (basis : Fin N → Matrix (Fin 3) (Fin N) ℝ) :
    LinearGradient (K := K) (gradientLocal cache basis) := by
  refine ⟨fun q d c => ∑ e, (cache q).assoc d e * (1 / ((cache q).det * (cache q).det) *
    (basis q e c - (cache q).detGrad e * (if c = q then 1 / (cache q).det else 0))), fun u q d r => ?_⟩
  simp only [gradientLocal, globalGradient, Matrix.mul_apply, Matrix.smul_apply, Matrix.sub_apply, Matrix.of_apply,
    outer_apply, getValue, Pi.smul_apply, smul_eq_mul, Finset.sum_mul]
  rw [Finset.sum_comm]
  refine Finset.sum_congr rfl fun e _ => ?_
  have : ∑ c, (cache q).assoc d e * (1 / ((cache q).det * (cache q).det) *
      (basis q e c - (cache q).detGrad e * (if c = q then 1 / (cache q).det else 0))) * u r c =
      (cache q).assoc d e * (1 / ((cache q).det * (cache q).det)) * (∑ c, (basis q e c * u r c -
        (cache q).detGrad e * (if c = q then 1 / (cache q).det * u r c else 0))) := by
    rw [Finset.mul_sum]
    refine Finset.sum_congr rfl fun c _ => ?_
    split_ifs <;> ring
  rw [this, Finset.sum_sub_distrib, ← Finset.mul_sum, Finset.sum_ite_eq' Finset.univ q, if_pos (Finset.mem_univ q)]
  ring

theorem divergenceGlobal_apply (weight : Fin Q → ℝ) (basis : Fin Q → Matrix (Fin 3) (Fin N) ℝ) (f : Fin Q → Flux K)
    (r : Fin K) (i : Fin N) : divergenceGlobal weight basis f r i = ∑ q, ∑ d, weight q * basis q d i * f q r d := by
  unfold divergenceGlobal
  rw [foldl_add fun q => (weight q • f q) * basis q, zero_add, Matrix.sum_apply]
  refine Finset.sum_congr rfl fun q _ => ?_
  rw [Matrix.mul_apply]
  refine Finset.sum_congr rfl fun d _ => ?_
  rw [Matrix.smul_apply, smul_eq_mul]
  ring

theorem divergenceGlobal_linear (weight : Fin Q → ℝ) (basis : Fin Q → Matrix (Fin 3) (Fin N) ℝ) :
    LinearDivergence (K := K) (divergenceGlobal weight basis) :=
  ⟨fun i q d => weight q * basis q d i, divergenceGlobal_apply weight basis⟩

theorem divergenceLocal_linear (weight : Fin N → ℝ) (cache : Fin N → Cache) (basis : Fin N → Matrix (Fin 3) (Fin N) ℝ) :
    LinearDivergence (K := K) (divergenceLocal weight cache basis) := by
  refine ⟨fun i q d => ∑ e, weight q * ((cache q).assoc d e * basis q e i), fun f r i => ?_⟩
  unfold divergenceLocal
  rw [foldl_add fun q => (weight q • globalFluxToLocalFlux (cache q) (f q)) * basis q, zero_add, Matrix.sum_apply]
  refine Finset.sum_congr rfl fun q _ => ?_
  simp only [Matrix.mul_apply, Matrix.smul_apply, smul_eq_mul, globalFluxToLocalFlux, Finset.sum_mul, Finset.mul_sum]
  rw [Finset.sum_comm]
  refine Finset.sum_congr rfl fun d _ => Finset.sum_congr rfl fun e _ => ?_
  ring

theorem set_all (value : Fin N → Fin K → ℝ) (r : Fin K) (i : Fin N) :
    ((List.finRange N).foldl (fun (data : Coeff K N) q =>
      Matrix.of fun r i => if i = q then data r i - value q r else data r i) 0) r i = -value i r := by
  have h : ∀ (l : List (Fin N)) (data : Coeff K N), l.Nodup → (l.foldl (fun (data : Coeff K N) q =>
      Matrix.of fun r i => if i = q then data r i - value q r else data r i) data) r i =
      if i ∈ l then data r i - value i r else data r i := by
    intro l
    induction l with
    | nil => intro data _; simp
    | cons q l ih =>
      intro data hl
      rw [List.nodup_cons] at hl
      rw [List.foldl_cons, ih _ hl.2]
      simp only [Matrix.of_apply, List.mem_cons]
      by_cases hi : i = q
      · subst hi; simp [hl.1]
      · simp [hi]
  rw [h _ _ (List.nodup_finRange N), if_pos (List.mem_finRange i)]
  simp

theorem divergenceFR_linear (cache : Fin N → Cache) (basis : Fin N → Matrix (Fin 3) (Fin N) ℝ) :
    LinearDivergence (K := K) (divergenceFR cache basis) := by
  refine ⟨fun i q d => -∑ e, (cache q).assoc d e * basis i e q, fun f r i => ?_⟩
  unfold divergenceFR
  dsimp only
  rw [set_all fun q => (List.finRange N).foldl (fun v k => v +
    (globalFluxToLocalFlux (cache k) (f k)).mulVec fun d => basis q d k) 0]
  rw [foldl_add fun k => (globalFluxToLocalFlux (cache k) (f k)).mulVec fun d => basis i d k, zero_add,
    Finset.sum_apply, ← Finset.sum_neg_distrib]
  refine Finset.sum_congr rfl fun q _ => ?_
  simp only [Matrix.mulVec, dotProduct, globalFluxToLocalFlux, Matrix.mul_apply, Finset.sum_mul, neg_mul,
    Finset.sum_neg_distrib]
  rw [Finset.sum_comm]
  refine congrArg Neg.neg (Finset.sum_congr rfl fun d _ => Finset.sum_congr rfl fun e _ => ?_)
  ring

/-- The residual of a cell is linear and treats all components alike. -/
theorem residual_matrix {c : Cell K N Q} (hg : LinearGradient c.gradient) (hd : LinearDivergence c.divergence)
    (nu : Fin 3 → ℝ) : ∃ M : Matrix (Fin N) (Fin N) ℝ, Represents M (residual nu c) := by
  obtain ⟨G, hG⟩ := hg
  obtain ⟨T, hT⟩ := hd
  refine ⟨fun i c => ∑ q, ∑ d, T i q d * (-nu d * G q d c), fun u r i => ?_⟩
  unfold residual
  rw [hT]
  simp only [diffusiveFlux_apply, hG, Finset.mul_sum, Finset.sum_mul]
  rw [Finset.sum_comm]
  conv_rhs => rw [Finset.sum_comm]
  rw [Finset.sum_comm]
  refine Finset.sum_congr rfl fun q _ => ?_
  rw [Finset.sum_comm]
  refine Finset.sum_congr rfl fun d _ => Finset.sum_congr rfl fun e _ => ?_
  ring

/-- The loop over columns. -/
theorem columns {nu : Fin 3 → ℝ} {c : Cell (K + 1) N Q} {M : Matrix (Fin N) (Fin N) ℝ}
    (hM : Represents M (residual nu c)) (junk : Matrix (Fin N) (Fin N) ℝ) :
    (List.finRange N).foldlM (column nu c) (0, junk) = some (lastOnes, M) := by
  obtain ⟨s, h1, h2, h3⟩ := Checkpoint.fold_prefix (fun pre (s : Coeff (K + 1) N × Matrix (Fin N) (Fin N) ℝ) =>
      s.1 = Matrix.of (fun _ j => if j.val + 1 = pre.length then 1 else 0) ∧
      ∀ j : Fin N, j.val < pre.length → ∀ i, s.2 i j = M i j)
    (column nu c) (List.finRange N) (0, junk) ⟨by ext r j; simp, fun j hj => absurd hj (Nat.not_lt_zero _)⟩ (by
    rintro pre j post s e ⟨g1, g2⟩
    have hj : j.val = pre.length := by
      have h0 : (List.finRange N)[pre.length]? = some j := by rw [e]; simp
      rw [List.getElem?_eq_some_iff] at h0
      obtain ⟨_, h0⟩ := h0
      rw [← h0]
      simp
    have hcoeff : (if 0 < j.val then setCol (setCol s.1 j 1) (j - 1) 0 else setCol s.1 j 1) =
        Matrix.of fun _ i => if i = j then 1 else 0 := by
      ext r i
      split_ifs with h0
      · simp only [setCol, Matrix.of_apply, g1, Fin.ext_iff]
        split_ifs <;> first | rfl | omega
      · simp only [setCol, Matrix.of_apply, g1, Fin.ext_iff]
        split_ifs <;> first | rfl | omega
    have hres : ∀ r i, residual nu c (Matrix.of fun _ i => if i = j then 1 else 0) r i = M i j := by
      intro r i
      rw [hM]
      simp only [Matrix.of_apply, mul_ite, mul_one, mul_zero]
      rw [Finset.sum_ite_eq' Finset.univ j, if_pos (Finset.mem_univ j)]
    refine ⟨(Matrix.of fun _ i => if i = j then 1 else 0, Matrix.of fun i j' => if j' = j then M i j else s.2 i j'),
      ?_, ?_, ?_⟩
    · unfold column
      dsimp only
      rw [hcoeff]
      refine (if_pos ?_).trans ?_
      · intro r
        funext i
        exact (hres r i).trans (hres 0 i).symm
      · simp only [hres]
    · ext r i
      simp only [Matrix.of_apply, List.length_append, List.length_singleton, ← hj, Fin.ext_iff, Nat.add_right_cancel_iff]
    · intro j' hj' i
      rw [List.length_append, List.length_singleton] at hj'
      simp only [Matrix.of_apply]
      split_ifs with h
      · rw [h]
      · have : j'.val ≠ j.val := fun h' => h (Fin.ext h')
        exact g2 j' (by omega) i)
  rw [h1, Option.some.injEq]
  refine Prod.ext ?_ ?_
  · rw [h2, List.length_finRange]; rfl
  · ext i j; exact h3 j (by rw [List.length_finRange]; exact j.2) i

theorem zeroed {α : Type*} [DecidableEq α] {β : Type*} (l : List α) (f : α → β) (z : β) (a : α) :
    (l.foldl (fun f n => Function.update f n z) f) a = if a ∈ l then z else f a := by
  induction l generalizing f with
  | nil => simp
  | cons n l ih =>
    rw [List.foldl_cons, ih]
    by_cases h : a = n
    · subst h; simp
    · simp [h]

end MiniCFD.Viscosity
