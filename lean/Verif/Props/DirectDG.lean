import Verif.Model.DirectDG
import Verif.Spec.DirectDG
import Mathlib.Algebra.Order.Field.Basic
import Mathlib.Tactic.Linarith
import Mathlib.Tactic.LinearCombination
import Mathlib.Tactic.FieldSimp
import Mathlib.Tactic.Ring
import Mathlib.Tactic.FinCases
import Mathlib.Tactic.NormNum

/-! # C38: the interface gradient of the direct discontinuous Galerkin method -/

namespace MiniCFD.DirectDG

open MiniCFD.Spec.DirectDG

variable {K : Type*} [Field K] {ι : Type*}

theorem commonGradient_apply (b d : K) (n : Vector K) (uL uR : Value K ι) (gL gR : Gradient K ι)
    (i : Fin 3) (k : ι) :
    commonGradient b d n uL uR gL gR i k =
      (gL i k + gR i k) / 2 + n i * (b / d) * (uR k - uL k) := by
  fin_cases i <;> simp [commonGradient, addRow]

/-- The code computes the formula of the scheme for every symmetric Hessian. -/
theorem commonGradientH_eq (b0 b1 d : K) (n : Vector K) (uL uR : Value K ι) (gL gR : Gradient K ι)
    (hL hR : Fin 3 → Fin 3 → ι → K) (sL : ∀ i j, hL i j = hL j i) (sR : ∀ i j, hR i j = hR j i) :
    commonGradientH b0 b1 d n uL uR gL gR (pack hL) (pack hR) =
      interfaceGradient b0 b1 d n uL uR gL gR hL hR := by
  funext i k
  have e := fun i => commonGradient_apply b0 d n uL uR gL gR i k
  unfold interfaceGradient
  rw [Fin.sum_univ_three]
  fin_cases i
  · have := e 0
    simp [commonGradientH, addRow, pack, XX, XY, XZ, this]; ring
  · have := e 1
    simp [commonGradientH, addRow, pack, YX, XY, YY, YZ, this, sL 1 0, sR 1 0]; ring
  · have := e 2
    simp [commonGradientH, addRow, pack, ZX, XZ, ZY, YZ, ZZ, this, sL 2 0, sR 2 0, sL 2 1, sR 2 1]
    ring

/-- Every array of six rows is the packing of a symmetric matrix, so nothing is lost above. -/
theorem pack_surjective (h : Hessian K ι) :
    ∃ m : Fin 3 → Fin 3 → ι → K, (∀ i j, m i j = m j i) ∧ pack m = h := by
  refine ⟨![![h 0, h 1, h 2], ![h 1, h 3, h 4], ![h 2, h 4, h 5]], ?_, ?_⟩
  · intro i j; fin_cases i <;> fin_cases j <;> rfl
  · funext i; fin_cases i <;> rfl

/-- Without Hessians the formula is the same with `β₁ = 0`. -/
theorem commonGradient_eq (b0 d : K) (n : Vector K) (uL uR : Value K ι) (gL gR : Gradient K ι)
    (h : Fin 3 → Fin 3 → ι → K) :
    commonGradient b0 d n uL uR gL gR = interfaceGradient b0 0 d n uL uR gL gR h h := by
  funext i k
  rw [commonGradient_apply]; unfold interfaceGradient; ring

/-! ### Consistency -/

/-- When both sides carry the same data the common gradient is theirs. -/
theorem consistent [NeZero (2 : K)] (b0 b1 d : K) (n : Vector K) (u : Value K ι) (g : Gradient K ι)
    (h : Hessian K ι) : commonGradientH b0 b1 d n u u g g h h = g := by
  obtain ⟨m, hm, rfl⟩ := pack_surjective h
  rw [commonGradientH_eq _ _ _ _ _ _ _ _ _ _ hm hm]
  funext i k
  have : (2 : K) ≠ 0 := NeZero.ne 2
  unfold interfaceGradient
  simp

theorem consistent' [NeZero (2 : K)] (b0 d : K) (n : Vector K) (u : Value K ι) (g : Gradient K ι) :
    commonGradient b0 d n u u g g = g := by
  funext i k
  have : (2 : K) ≠ 0 := NeZero.ne 2
  rw [commonGradient_apply]
  field_simp
  ring

/-! ### Conservation -/

/-- The two cells of a face agree on the gradient: exchanging them and reversing the normal changes
nothing. -/
theorem swap (b0 b1 d : K) (n : Vector K) (uL uR : Value K ι) (gL gR : Gradient K ι)
    (hL hR : Hessian K ι) :
    commonGradientH b0 b1 d (fun i => -n i) uR uL gR gL hR hL =
      commonGradientH b0 b1 d n uL uR gL gR hL hR := by
  obtain ⟨mL, sL, rfl⟩ := pack_surjective hL
  obtain ⟨mR, sR, rfl⟩ := pack_surjective hR
  rw [commonGradientH_eq _ _ _ _ _ _ _ _ _ _ sL sR, commonGradientH_eq _ _ _ _ _ _ _ _ _ _ sR sL]
  funext i k
  unfold interfaceGradient
  simp only [Fin.sum_univ_three]
  ring

theorem swap' (b0 d : K) (n : Vector K) (uL uR : Value K ι) (gL gR : Gradient K ι) :
    commonGradient b0 d (fun i => -n i) uR uL gR gL = commonGradient b0 d n uL uR gL gR := by
  funext i k
  simp only [commonGradient_apply]
  ring

/-- Consequently what one cell loses through the face the other one gains. -/
theorem flux_opposite (nu : Vector K) (b0 b1 d : K) (n : Vector K) (uL uR : Value K ι)
    (gL gR : Gradient K ι) (hL hR : Hessian K ι) (k : ι) :
    minusFlux nu (commonGradientH b0 b1 d (fun i => -n i) uR uL gR gL hR hL) (fun i => -n i)
        (fun _ => 0) k +
      minusFlux nu (commonGradientH b0 b1 d n uL uR gL gR hL hR) n (fun _ => 0) k = 0 := by
  rw [swap]
  simp only [minusFlux]
  ring

/-! ### Linearity -/

theorem linear (b0 b1 d s t : K) (n : Vector K) (uL uR vL vR : Value K ι)
    (gL gR eL eR : Gradient K ι) (hL hR mL mR : Hessian K ι) (i : Fin 3) (k : ι) :
    commonGradientH b0 b1 d n (fun k => s * uL k + t * vL k) (fun k => s * uR k + t * vR k)
        (fun i k => s * gL i k + t * eL i k) (fun i k => s * gR i k + t * eR i k)
        (fun i k => s * hL i k + t * mL i k) (fun i k => s * hR i k + t * mR i k) i k =
      s * commonGradientH b0 b1 d n uL uR gL gR hL hR i k +
        t * commonGradientH b0 b1 d n vL vR eL eR mL mR i k := by
  fin_cases i <;>
    simp [commonGradientH, commonGradient, addRow, XX, XY, XZ, YX, YY, YZ, ZX, ZY, ZZ] <;> ring

/-- The normal component of the penalty: for a unit normal, the jump of the value enters the normal
derivative with the factor `β₀ / h` and the tangential derivatives not at all. -/
theorem penalty_normal (b0 d : K) (n t : Vector K) (uL uR : Value K ι) (gL gR : Gradient K ι) (k : ι)
    (unit : n 0 * n 0 + n 1 * n 1 + n 2 * n 2 = 1)
    (tangent : n 0 * t 0 + n 1 * t 1 + n 2 * t 2 = 0) :
    (∑ i, commonGradient b0 d n uL uR gL gR i k * n i =
        ∑ i, (gL i k + gR i k) / 2 * n i + b0 / d * (uR k - uL k)) ∧
      ∑ i, commonGradient b0 d n uL uR gL gR i k * t i = ∑ i, (gL i k + gR i k) / 2 * t i := by
  simp only [commonGradient_apply, Fin.sum_univ_three]
  constructor
  · linear_combination (b0 / d * (uR k - uL k)) * unit
  · linear_combination (b0 / d * (uR k - uL k)) * tangent

/-! ### The flux of the linear models -/

/-- The flux through a face is the flux matrix applied to the normal. -/
theorem flux_matrix_normal (nu : Vector K) (g : Gradient K ι) (f : Gradient K ι) (n : Vector K)
    (k : ι) :
    ∑ i, minusFluxMatrix nu g f i k * n i = minusFlux nu g n (fun k => ∑ i, f i k * n i) k := by
  simp [minusFluxMatrix, minusFlux, addRow, Fin.sum_univ_three]
  ring

/-- Diffusion dissipates: with non-negative coefficients the flux never runs up the gradient. -/
theorem dissipative {K : Type*} [Field K] [LinearOrder K] [IsStrictOrderedRing K] (nu : Vector K)
    (h : ∀ i, 0 ≤ nu i) (g : Gradient K ι) (k : ι) :
    ∑ i, minusFluxMatrix nu g (fun _ _ => 0) i k * g i k ≤ 0 := by
  simp [minusFluxMatrix, addRow, Fin.sum_univ_three]
  nlinarith [mul_nonneg (h 0) (mul_self_nonneg (g 0 k)), mul_nonneg (h 1) (mul_self_nonneg (g 1 k)),
    mul_nonneg (h 2) (mul_self_nonneg (g 2 k))]

/-- An isotropic model does not prefer a direction: the flux is the normal derivative times `ν`. -/
theorem isotropic_flux (nu : K) (g : Gradient K ι) (n : Vector K) (f : Value K ι) (k : ι) :
    minusFlux (isotropic nu) g n f k = f k - nu * ∑ i, g i k * n i := by
  simp [minusFlux, isotropic, Fin.sum_univ_three]
  ring

/-! ### Examples -/

example : commonGradientH (K := ℚ) (ι := Fin 1) 2 (1 / 12) 3 ![1, 0, 0] ![1] ![4]
    ![![5], ![6], ![7]] ![![9], ![6], ![1]] ![![0], ![0], ![0], ![0], ![0], ![0]]
    ![![4], ![8], ![0], ![0], ![0], ![0]] = ![![10], ![8], ![4]] := by
  decide +kernel

/-- A unit normal and a tangent. -/
example : ((3 : ℚ) / 5) * (3 / 5) + 4 / 5 * (4 / 5) + 0 * 0 = 1 ∧
    ((3 : ℚ) / 5) * 4 + 4 / 5 * (-3) + 0 * 7 = 0 := by norm_num

end MiniCFD.DirectDG
