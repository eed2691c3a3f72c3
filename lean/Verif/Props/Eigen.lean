import Verif.Lemmas.Eigen

/-! C26: the characteristic matrices. -/

namespace MiniCFD.Eigen
open MiniCFD.Euler MiniCFD.Spec.Euler MiniCFD.Spec.Eigen

theorem sound_pos {γ : ℝ} (hγ : 1 < γ) {d : Nat} {c : Tup d} (hc : Admissible γ c) :
    0 < speedOfSound γ (toPrim γ c) := by
  rw [sound_toPrim hγ hc]
  exact Real.sqrt_pos.2 (div_pos (mul_pos (by linarith) hc.2) hc.1)

/-- `L * R` is the identity. -/
theorem left_right {γ : ℝ} (hγ : 1 < γ) {F : Frame 2} (h : Orthonormal F) (c : Tup 2)
    (hc : Admissible γ c) : matLOf γ F c * matROf γ F c = 1 := by
  have ha := (sound_pos hγ hc).ne'
  refine left_right_scalar h ha ?_
  unfold e0
  exact mul_ne_zero (mul_ne_zero ha ha) (one_div_ne_zero (by linarith))

/-- `R * L` is the identity. -/
theorem right_left {γ : ℝ} (hγ : 1 < γ) {F : Frame 2} (h : Orthonormal F) (c : Tup 2)
    (hc : Admissible γ c) : matROf γ F c * matLOf γ F c = 1 :=
  mul_eq_one_comm.1 (left_right hγ h c hc)

/-- Along every column of `R` the flux through the face changes by that column times its
characteristic speed: the columns are eigenvectors of the flux Jacobian. -/
theorem columns_are_eigenvectors {γ : ℝ} (hγ : 1 < γ) {F : Frame 2} (h : Orthonormal F) (c : Tup 2)
    (hc : Admissible γ c) (j : Fin 5) :
    FluxDeriv γ (F 0) c (column (matROf γ F c) j)
      (Tup.scale (speeds γ (F 0) c j) (column (matROf γ F c) j)) := by
  have hrow : ∀ i j, F i 0 * F j 0 + F i 1 * F j 1 + F i 2 * F j 2 = if i = j then 1 else 0 := by
    intro i j
    have := congrFun (congrFun h i) j
    rw [Matrix.mul_apply, Matrix.one_apply] at this
    simpa [Fin.sum_univ_succ, add_assoc] using this
  have hm := hc.1.ne'
  have hd := closed_is_deriv (γ := γ) (nu := F 0) (δ := column (matROf γ F c) j) hm
  suffices e : closed γ (F 0) c (column (matROf γ F c) j) =
      Tup.scale (speeds γ (F 0) c j) (column (matROf γ F c) j) by
    rw [e] at hd; exact hd
  have hs := sound_toPrim hγ hc
  have hg : γ - 1 ≠ 0 := by linarith
  have ha2 : sound γ c * sound γ c * c.mass = γ * pressure γ c := by
    unfold sound
    rw [Real.mul_self_sqrt (div_pos (mul_pos (by linarith) hc.2) hc.1).le]
    exact div_mul_cancel₀ _ hm
  have hE : c.energy * (γ - 1) = pressure γ c +
      (γ - 1) * c.mass * ((vel c 0 ^ 2 + vel c 1 ^ 2 + vel c 2 ^ 2) / 2) := by
    unfold pressure vel
    simp only [Fin.sum_univ_succ, Finset.univ_unique, Finset.sum_singleton]
    simp
    field_simp
    ring
  have hmom : ∀ i, c.mom i = c.mass * vel c i := by
    intro i; unfold vel; field_simp
  have hsum : ∀ f : Fin (2 + 1) → ℝ, ∑ i, f i = f 0 + f 1 + f 2 := by
    intro f; simp [Fin.sum_univ_succ, add_assoc]
  have hgi : 1 / (γ - 1) * (γ - 1) = 1 := one_div_mul_cancel hg
  have hH : c.energy + pressure γ c = c.mass * (sound γ c * sound γ c * (1 / (γ - 1)) +
      (vel c 0 ^ 2 + vel c 1 ^ 2 + vel c 2 ^ 2) / 2) := by
    apply mul_right_cancel₀ hg
    linear_combination hE - (1 / (γ - 1)) * (γ - 1) * ha2 - γ * pressure γ c * hgi
  have hR : ∀ k, matROf γ F c k j = rCol γ (toPrim γ c) (F 0) (F 1) (F 2) j k := fun _ => rfl
  have hq := rCol_q γ (toPrim γ c) (F 0) (F 1) (F 2) j
  have hw := rCol_w γ (toPrim γ c) (F 0) (F 1) (F 2) (F 0) j
  have hz := rCol_zero γ (toPrim γ c) (F 0) (F 1) (F 2) j
  have hmo : ∀ i, (toPrim γ c).mom i = vel c i := by
    intro i; rw [toPrim_physical hγ (physical_of_admissible hc)]
  have hee : e0 γ (toPrim γ c) = sound γ c * sound γ c * (1 / (γ - 1)) := by unfold e0; rw [hs]
  have hrow0 : ∀ i, F 0 0 * F i 0 + F 0 1 * F i 1 + F 0 2 * F i 2 = if i = 0 then 1 else 0 := by
    intro i; rw [hrow]; simp [eq_comm]
  simp only [hrow0, hs, if_true, show ¬ (1 : Fin 3) = 0 by decide, show ¬ (2 : Fin 3) = 0 by decide,
    if_false, mul_one, neg_zero] at hw
  have hq' : (γ - 1) * qOf (toPrim γ c) (rCol γ (toPrim γ c) (F 0) (F 1) (F 2) j) =
      sound γ c * sound γ c * ![1, 0, 0, 0, 1] j := by
    rw [hq, hee]
    fin_cases j <;> simp <;> field_simp
  have hsp : speeds γ (F 0) c j =
      velAlong (F 0) c - ![sound γ c, 0, 0, 0, -sound γ c] j := by
    fin_cases j <;> simp [speeds]
  have c1 := col_mass γ (toPrim γ c) (F 0) (F 1) (F 2) j (sound γ c)
  have c2 := fun k => col_mom γ (toPrim γ c) (F 0) (F 1) (F 2) j k
  have c3 := col_energy γ (toPrim γ c) (F 0) (F 1) (F 2) j
  have hun : comp (toPrim γ c) (F 0) = velAlong (F 0) c := by
    unfold comp velAlong; rw [hsum]; simp only [hmo]
  have hek : ek (toPrim γ c) = (vel c 0 ^ 2 + vel c 1 ^ 2 + vel c 2 ^ 2) / 2 := by
    unfold ek; simp only [hmo]; ring
  rw [hs, hee, hun, hek] at c3
  simp only [hs, hmo] at c2
  unfold wOf at hw
  unfold qOf at hq'
  rw [hun] at hw
  rw [hek] at hq'
  simp only [hmo] at hq'
  have hcol : column (matROf γ F c) j = ⟨rCol γ (toPrim γ c) (F 0) (F 1) (F 2) j 0,
      ![rCol γ (toPrim γ c) (F 0) (F 1) (F 2) j 1, rCol γ (toPrim γ c) (F 0) (F 1) (F 2) j 2,
        rCol γ (toPrim γ c) (F 0) (F 1) (F 2) j 3],
      rCol γ (toPrim γ c) (F 0) (F 1) (F 2) j 4⟩ := rfl
  rw [hcol, hsp]
  clear hcol hsp hq hz hR hd
  generalize rCol γ (toPrim γ c) (F 0) (F 1) (F 2) j = x at *
  generalize (![sound γ c, 0, 0, 0, -sound γ c] j : ℝ) = w at *
  generalize (![1, 0, 0, 0, 1] j : ℝ) = q at *
  have hun' : ((∑ i, (![x 1, x 2, x 3] : Fin 3 → ℝ) i * F 0 i) - velAlong (F 0) c * x 0) / c.mass =
      -w / c.mass := by
    congr 1
    rw [hsum]
    simp
    linear_combination -hw
  have hp' : (γ - 1) * (x 4 - (∑ i, vel c i * (![x 1, x 2, x 3] : Fin 3 → ℝ) i) +
      (∑ i, vel c i ^ 2) / 2 * x 0) = sound γ c * sound γ c * q := by
    rw [hsum, hsum, ← hq']
    change (γ - 1) * (x 4 - (vel c 0 * x 1 + vel c 1 * x 2 + vel c 2 * x 3) +
      (vel c 0 ^ 2 + vel c 1 ^ 2 + vel c 2 ^ 2) / 2 * x 0) = _
    ring
  unfold closed Tup.scale
  dsimp only
  rw [hun', hp']
  apply Tup.ext
  · dsimp only
    rw [hsum]
    simp
    linear_combination -hw + c1
  · funext k
    have hk := c2 k
    have hmk := hmom k
    simp only [Pi.smul_apply, smul_eq_mul]
    rw [hmk]
    rw [show c.mass * vel c k * (-w / c.mass) = -(vel c k * w) by field_simp]
    linear_combination hk
  · dsimp only
    rw [hH, show ∀ y : ℝ, c.mass * y * (-w / c.mass) = -(y * w) by intro y; field_simp]
    linear_combination c3

example : Orthonormal (!![0, 1, 0; 0, 0, 1; 1, 0, 0] : Frame 2) := by
  unfold Orthonormal
  ext i j
  fin_cases i <;> fin_cases j <;> simp [Matrix.mul_apply, Fin.sum_univ_succ, Matrix.transpose]

example : Admissible (d := 2) (7 / 5) ⟨2, ![2, 0, 4], 10⟩ := by
  constructor
  · norm_num
  · norm_num [pressure, Fin.sum_univ_succ]

end MiniCFD.Eigen
