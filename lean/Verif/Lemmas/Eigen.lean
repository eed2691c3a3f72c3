import Verif.Spec.Eigen
import Verif.Lemmas.Euler
import Mathlib.Analysis.Calculus.Deriv.Add
import Mathlib.Analysis.Calculus.Deriv.Mul
import Mathlib.Analysis.Calculus.Deriv.Inv
import Mathlib.Analysis.Calculus.Deriv.Pow
import Mathlib.Tactic.NormNum

namespace MiniCFD.Eigen
open MiniCFD.Euler MiniCFD.Spec.Euler MiniCFD.Spec.Eigen

/-- The directional derivative of the flux, in closed form. -/
noncomputable def closed {d : Nat} (γ : ℝ) (nu : Fin (d + 1) → ℝ) (c δ : Tup d) : Tup d :=
  let un := velAlong nu c
  let un' := ((∑ i, δ.mom i * nu i) - un * δ.mass) / c.mass
  let p' := (γ - 1) * (δ.energy - (∑ i, vel c i * δ.mom i) + (∑ i, vel c i ^ 2) / 2 * δ.mass)
  ⟨∑ i, δ.mom i * nu i, fun i => δ.mom i * un + c.mom i * un' + p' * nu i,
   (δ.energy + p') * un + (c.energy + pressure γ c) * un'⟩

theorem line (x y : ℝ) : HasDerivAt (fun t : ℝ => x + t * y) y 0 := by
  have := ((hasDerivAt_id (0 : ℝ)).mul_const y).const_add x
  simpa using this

theorem deriv_vel {d : Nat} {c δ : Tup d} (h : c.mass ≠ 0) (i : Fin (d + 1)) :
    HasDerivAt (fun t : ℝ => vel (Tup.add c (Tup.scale t δ)) i)
      ((δ.mom i - vel c i * δ.mass) / c.mass) 0 := by
  have h1 := line (c.mom i) (δ.mom i)
  have h2 := line c.mass δ.mass
  have h3 := h1.div h2 (by simpa using h)
  refine h3.congr_deriv ?_
  simp only [zero_mul, add_zero]
  unfold vel
  field_simp

theorem deriv_along {d : Nat} {c δ : Tup d} (h : c.mass ≠ 0) (nu : Fin (d + 1) → ℝ) :
    HasDerivAt (fun t : ℝ => velAlong nu (Tup.add c (Tup.scale t δ)))
      (((∑ i, δ.mom i * nu i) - velAlong nu c * δ.mass) / c.mass) 0 := by
  unfold velAlong
  have h1 := HasDerivAt.fun_sum (u := Finset.univ)
    (fun i _ => (deriv_vel (δ := δ) h i).mul_const (nu i))
  refine h1.congr_deriv ?_
  rw [Finset.sum_mul, ← Finset.sum_sub_distrib, Finset.sum_div]
  exact Finset.sum_congr rfl fun i _ => by ring

theorem deriv_pressure {d : Nat} {γ : ℝ} {c δ : Tup d} (h : c.mass ≠ 0) :
    HasDerivAt (fun t : ℝ => pressure γ (Tup.add c (Tup.scale t δ)))
      ((γ - 1) * (δ.energy - (∑ i, vel c i * δ.mom i) + (∑ i, vel c i ^ 2) / 2 * δ.mass)) 0 := by
  unfold pressure
  have h0 := line c.energy δ.energy
  have h1 := HasDerivAt.fun_sum (u := Finset.univ)
    (fun i _ => (line (c.mom i) (δ.mom i)).pow 2)
  have h2 := (line c.mass δ.mass).const_mul 2
  have h3 := h1.div h2 (by simpa using h)
  have h4 := (h0.sub h3).const_mul (γ - 1)
  refine h4.congr_deriv ?_
  simp only [Pi.pow_apply, zero_mul, add_zero]
  congr 1
  have e1 : ∑ i, vel c i * δ.mom i = (∑ i, c.mom i * δ.mom i) / c.mass := by
    rw [Finset.sum_div]; exact Finset.sum_congr rfl fun i _ => by unfold vel; ring
  have e2 : ∑ i, vel c i ^ 2 = (∑ i, c.mom i ^ 2) / c.mass ^ 2 := by
    rw [Finset.sum_div]; exact Finset.sum_congr rfl fun i _ => by unfold vel; ring
  have e3 : ∑ i, ((2 : ℕ) : ℝ) * c.mom i ^ (2 - 1) * δ.mom i = 2 * ∑ i, c.mom i * δ.mom i := by
    rw [Finset.mul_sum]; exact Finset.sum_congr rfl fun i _ => by push_cast; ring
  rw [e1, e2, e3]
  field_simp
  ring

theorem closed_is_deriv {d : Nat} {γ : ℝ} {nu : Fin (d + 1) → ℝ} {c δ : Tup d} (h : c.mass ≠ 0) :
    FluxDeriv γ nu c δ (closed γ nu c δ) := by
  have hv := deriv_along (δ := δ) h nu
  have hp := deriv_pressure (γ := γ) (δ := δ) h
  have z : Tup.add c (Tup.scale 0 δ) = c := by
    unfold Tup.add Tup.scale; simp
  unfold FluxDeriv flux closed
  refine ⟨?_, fun i => ?_, ?_⟩
  · have h1 := (line c.mass δ.mass).mul hv
    refine h1.congr_deriv ?_
    simp only [zero_mul, add_zero, z]
    field_simp
    ring
  · have h1 := ((line (c.mom i) (δ.mom i)).mul hv).add (hp.mul_const (nu i))
    refine h1.congr_deriv ?_
    simp only [zero_mul, add_zero, z]
  · have h1 := ((line c.energy δ.energy).add hp).mul hv
    refine h1.congr_deriv ?_
    simp only [Pi.add_apply, zero_mul, add_zero, z]

/-! ### Rows of `L` as functionals -/

noncomputable def qOf (s : Tup 2) (x : Fin 5 → ℝ) : ℝ :=
  ek s * x 0 - (s.mom 0 * x 1 + s.mom 1 * x 2 + s.mom 2 * x 3) + x 4

def wOf (s : Tup 2) (e : Vec3) (x : Fin 5 → ℝ) : ℝ :=
  comp s e * x 0 - (e 0 * x 1 + e 1 * x 2 + e 2 * x 3)

theorem matL_row (γ : ℝ) (s : Tup 2) (nu mu pi : Vec3) (x : Fin 5 → ℝ) (i : Fin 5) :
    ∑ k, matL γ s nu mu pi i k * x k =
      ![(1 / e0 γ s * qOf s x + wOf s nu x / speedOfSound γ s) / 2, x 0 - 1 / e0 γ s * qOf s x,
        -wOf s mu x, -wOf s pi x,
        (1 / e0 γ s * qOf s x - wOf s nu x / speedOfSound γ s) / 2] i := by
  unfold qOf wOf
  fin_cases i <;> simp [matL, lCol, Fin.sum_univ_succ] <;> ring

theorem rCol_q (γ : ℝ) (s : Tup 2) (nu mu pi : Vec3) (j : Fin 5) :
    qOf s (rCol γ s nu mu pi j) = ![e0 γ s, 0, 0, 0, e0 γ s] j := by
  unfold qOf
  fin_cases j <;> simp [rCol, comp, ek] <;> ring

theorem rCol_w (γ : ℝ) (s : Tup 2) (nu mu pi e : Vec3) (j : Fin 5) :
    wOf s e (rCol γ s nu mu pi j) =
      ![speedOfSound γ s * (e 0 * nu 0 + e 1 * nu 1 + e 2 * nu 2), 0,
        -(e 0 * mu 0 + e 1 * mu 1 + e 2 * mu 2), -(e 0 * pi 0 + e 1 * pi 1 + e 2 * pi 2),
        -(speedOfSound γ s * (e 0 * nu 0 + e 1 * nu 1 + e 2 * nu 2))] j := by
  unfold wOf
  fin_cases j <;> simp [rCol, comp] <;> ring

theorem rCol_zero (γ : ℝ) (s : Tup 2) (nu mu pi : Vec3) (j : Fin 5) :
    rCol γ s nu mu pi j 0 = ![1, 1, 0, 0, 1] j := by
  fin_cases j <;> simp [rCol]

theorem left_right_scalar {γ : ℝ} {s : Tup 2} {F : Frame 2} (h : Orthonormal F)
    (ha : speedOfSound γ s ≠ 0) (he : e0 γ s ≠ 0) :
    matL γ s (F 0) (F 1) (F 2) * matR γ s (F 0) (F 1) (F 2) = 1 := by
  have hrow : ∀ i j, F i 0 * F j 0 + F i 1 * F j 1 + F i 2 * F j 2 = if i = j then 1 else 0 := by
    intro i j
    have := congrFun (congrFun h i) j
    rw [Matrix.mul_apply, Matrix.one_apply] at this
    simpa [Fin.sum_univ_succ, add_assoc] using this
  ext i j
  rw [Matrix.mul_apply, Matrix.one_apply]
  have e : ∀ k, matR γ s (F 0) (F 1) (F 2) k j = rCol γ s (F 0) (F 1) (F 2) j k := fun _ => rfl
  simp only [e]
  rw [matL_row, rCol_q, rCol_w, rCol_w, rCol_w, rCol_zero]
  simp only [hrow]
  fin_cases i <;> fin_cases j <;> simp [ha, he]

theorem col_mass (γ : ℝ) (s : Tup 2) (nu mu pi : Vec3) (j : Fin 5) (a : ℝ) :
    ![a, 0, 0, 0, -a] j * (rCol γ s nu mu pi j 0 - 1) = 0 := by
  fin_cases j <;> simp [rCol]

theorem col_mom (γ : ℝ) (s : Tup 2) (nu mu pi : Vec3) (j : Fin 5) (k : Fin 3) :
    ![speedOfSound γ s, 0, 0, 0, -speedOfSound γ s] j *
        (![rCol γ s nu mu pi j 1, rCol γ s nu mu pi j 2, rCol γ s nu mu pi j 3] k - s.mom k) +
      speedOfSound γ s * speedOfSound γ s * ![1, 0, 0, 0, 1] j * nu k = 0 := by
  fin_cases j <;> fin_cases k <;> simp [rCol] <;> ring

theorem col_energy (γ : ℝ) (s : Tup 2) (nu mu pi : Vec3) (j : Fin 5) :
    ![speedOfSound γ s, 0, 0, 0, -speedOfSound γ s] j *
        (rCol γ s nu mu pi j 4 - (e0 γ s + ek s)) +
      speedOfSound γ s * speedOfSound γ s * ![1, 0, 0, 0, 1] j * comp s nu = 0 := by
  fin_cases j <;> simp [rCol] <;> ring

end MiniCFD.Eigen
