import Verif.Spec.Positive
import Verif.Props.Euler
import Verif.Model.Exact
import Mathlib.Tactic.LinearCombination

/-!
Density and pressure are positive where all of these linear functions are: the energy seen by an observer of velocity
`v`.
-/

namespace MiniCFD.Positive

open MiniCFD.Euler MiniCFD.Spec.Euler MiniCFD.Spec.Positive MiniCFD.Exact

variable {d : Nat}

/-- The energy seen by an observer of velocity `v`. -/
noncomputable def ell (v : Fin (d + 1) → ℝ) (c : Tup d) : ℝ :=
  c.energy - ∑ i, c.mom i * v i + c.mass * ((∑ i, v i * v i) / 2)

theorem ell_add (v : Fin (d + 1) → ℝ) (a b : Tup d) : ell v (Tup.add a b) = ell v a + ell v b := by
  simp only [ell, Tup.add, Pi.add_apply, add_mul, Finset.sum_add_distrib]
  ring

theorem ell_sub (v : Fin (d + 1) → ℝ) (a b : Tup d) : ell v (Tup.sub a b) = ell v a - ell v b := by
  simp only [ell, Tup.sub, Pi.sub_apply, sub_mul, Finset.sum_sub_distrib]
  ring

theorem ell_scale (v : Fin (d + 1) → ℝ) (k : ℝ) (a : Tup d) : ell v (Tup.scale k a) = k * ell v a := by
  simp only [ell, Tup.scale, Pi.smul_apply, smul_eq_mul, mul_assoc, ← Finset.mul_sum]
  ring

/-- In the closed cone. -/
def Cone (c : Tup d) : Prop := ∀ v, 0 ≤ ell v c

theorem Cone.add {a b : Tup d} (ha : Cone a) (hb : Cone b) : Cone (Tup.add a b) := fun v => by
  rw [ell_add]; exact add_nonneg (ha v) (hb v)

theorem Cone.scale {a : Tup d} (ha : Cone a) {k : ℝ} (hk : 0 ≤ k) : Cone (Tup.scale k a) := fun v => by
  rw [ell_scale]; exact mul_nonneg hk (ha v)

theorem Cone.mass {a : Tup d} (ha : Cone a) : 0 ≤ a.mass := by
  by_contra hneg
  push Not at hneg
  have key : ∀ t : ℝ, 0 ≤ a.energy - a.mom 0 * t + a.mass * (t * t / 2) := by
    intro t
    have := ha fun i => if i = 0 then t else 0
    simpa [ell] using this
  have h1 := key ((2 * (|a.energy| + |a.mom 0| + 1)) / (-a.mass) + 1)
  have h2 := key (-((2 * (|a.energy| + |a.mom 0| + 1)) / (-a.mass) + 1))
  set t := (2 * (|a.energy| + |a.mom 0| + 1)) / (-a.mass) + 1 with ht
  have hm : 0 < -a.mass := by linarith
  have hA : 0 ≤ |a.energy| + |a.mom 0| := add_nonneg (abs_nonneg _) (abs_nonneg _)
  have ht1 : 1 ≤ t := by
    rw [ht]
    have : 0 ≤ 2 * (|a.energy| + |a.mom 0| + 1) / (-a.mass) := div_nonneg (by linarith) hm.le
    linarith
  have hmt : 2 * (|a.energy| + |a.mom 0| + 1) ≤ -a.mass * t := by
    have : -a.mass * t = 2 * (|a.energy| + |a.mom 0| + 1) + -a.mass := by
      have h0 := hneg.ne
      rw [ht]; field_simp; ring
    linarith
  have h3 : a.energy ≤ |a.energy| := le_abs_self _
  have h4 : 2 * (|a.energy| + |a.mom 0| + 1) * t ≤ -a.mass * t * t :=
    mul_le_mul_of_nonneg_right hmt (by linarith)
  have h5 : |a.energy| + |a.mom 0| + 1 ≤ (|a.energy| + |a.mom 0| + 1) * t := by
    nlinarith
  have h6 : -t * -t = t * t := by ring
  have h7 : -a.mass * t * t = -(a.mass * (t * t / 2)) * 2 := by ring
  have h8 := abs_nonneg (a.mom 0)
  rw [h6] at h2
  linarith

theorem ell_self (γ : ℝ) (hγ : 1 < γ) {c : Tup d} (hm : c.mass ≠ 0) :
    ell (vel c) c = pressure γ c / (γ - 1) := by
  have hg : γ - 1 ≠ 0 := by linarith
  have e1 : ∑ i, c.mom i * vel c i = (∑ i, c.mom i ^ 2) / c.mass := by
    rw [Finset.sum_div]
    exact Finset.sum_congr rfl fun i _ => by simp only [vel]; ring
  have e2 : ∑ i, vel c i * vel c i = (∑ i, c.mom i ^ 2) / (c.mass * c.mass) := by
    rw [Finset.sum_div]
    exact Finset.sum_congr rfl fun i _ => by simp only [vel]; field_simp
  simp only [ell, pressure, e1, e2]
  field_simp
  ring

theorem ell_pressure {γ : ℝ} (hγ : 1 < γ) {c : Tup d} (hm : 0 < c.mass) (v : Fin (d + 1) → ℝ) :
    ell v c = pressure γ c / (γ - 1) + c.mass * ((∑ i, (vel c i - v i) * (vel c i - v i)) / 2) := by
  rw [← ell_self γ hγ hm.ne']
  simp only [ell]
  have e : ∀ i, c.mom i = c.mass * vel c i := fun i => by simp only [vel]; field_simp
  have h1 : ∑ i, c.mom i * v i = c.mass * ∑ i, vel c i * v i := by
    rw [Finset.mul_sum]; exact Finset.sum_congr rfl fun i _ => by rw [e i]; ring
  have h2 : ∑ i, c.mom i * vel c i = c.mass * ∑ i, vel c i * vel c i := by
    rw [Finset.mul_sum]; exact Finset.sum_congr rfl fun i _ => by rw [e i]; ring
  have h3 : ∑ i, (vel c i - v i) * (vel c i - v i) =
      ∑ i, vel c i * vel c i - 2 * ∑ i, vel c i * v i + ∑ i, v i * v i := by
    rw [Finset.mul_sum, ← Finset.sum_sub_distrib, ← Finset.sum_add_distrib]
    exact Finset.sum_congr rfl fun i _ => by ring
  rw [h1, h2, h3]
  ring

/-- What is in the cone can be added to a gas. -/
theorem admissible_add {γ : ℝ} (hγ : 1 < γ) {a b : Tup d} (ha : Admissible γ a) (hb : Cone b) :
    Admissible γ (Tup.add a b) := by
  have hm : 0 < (Tup.add a b).mass := add_pos_of_pos_of_nonneg ha.1 hb.mass
  refine ⟨hm, ?_⟩
  have h1 := ell_self γ hγ hm.ne'
  rw [ell_add, ell_pressure hγ ha.1] at h1
  have h2 := hb (vel (Tup.add a b))
  have h3 : 0 ≤ a.mass * ((∑ i, (vel a i - vel (Tup.add a b) i) * (vel a i - vel (Tup.add a b) i)) / 2) :=
    mul_nonneg ha.1.le (div_nonneg (Finset.sum_nonneg fun i _ => mul_self_nonneg _) two_pos.le)
  have hg : 0 < γ - 1 := by linarith
  have h4 : 0 < pressure γ a / (γ - 1) := div_pos ha.2 hg
  have h5 : 0 < pressure γ (Tup.add a b) / (γ - 1) := by linarith
  exact (div_pos_iff_of_pos_right hg).1 h5

theorem admissible_scale {γ : ℝ} {a : Tup d} (ha : Admissible γ a) {k : ℝ} (hk : 0 < k) :
    Admissible γ (Tup.scale k a) := by
  refine ⟨mul_pos hk ha.1, ?_⟩
  have : pressure γ (Tup.scale k a) = k * pressure γ a := by
    simp only [pressure, Tup.scale, Pi.smul_apply, smul_eq_mul, mul_pow, ← Finset.mul_sum]
    have := ha.1.ne'
    field_simp
  rw [this]
  exact mul_pos hk ha.2

theorem admissible_cone {γ : ℝ} (hγ : 1 < γ) {a : Tup d} (ha : Admissible γ a) : Cone a := fun v => by
  rw [ell_pressure hγ ha.1]
  exact add_nonneg (div_nonneg ha.2.le (by linarith))
    (mul_nonneg ha.1.le (div_nonneg (Finset.sum_nonneg fun i _ => mul_self_nonneg _) two_pos.le))

/-! ### In the axes of a face -/

theorem ell_turn {F : Frame d} (h : Orthonormal F) (v : Fin (d + 1) → ℝ) (a : Tup d) :
    ell v (normalToGlobal F a) = ell (fun i => ∑ j, v j * F i j) a := by
  simp only [ell, normalToGlobal, sum_sq_frame h]
  congr 2
  simp only [Finset.sum_mul, Finset.mul_sum]
  rw [Finset.sum_comm]
  exact Finset.sum_congr rfl fun i _ => Finset.sum_congr rfl fun j _ => by ring

/-- The energy of a one-dimensional state seen by an observer who moves with speed `v` along the axis and so that `K`
is half of the square of the speed across. -/
noncomputable def L (γ v K : ℝ) (s : P3) : ℝ := s.p / (γ - 1) + s.rho * ((s.u - v) * (s.u - v) / 2 + K)

/-- The flux of that energy. -/
noncomputable def Q (γ v K : ℝ) (s : P3) : ℝ := s.u * L γ v K s + s.p * (s.u - v)

/-- Half of the square of the speed across. -/
noncomputable def across (v : Fin (d + 1) → ℝ) (s : Tup d) : ℝ :=
  (∑ i : Fin d, (s.mom i.succ - v i.succ) * (s.mom i.succ - v i.succ)) / 2

theorem across_nonneg (v : Fin (d + 1) → ℝ) (s : Tup d) : 0 ≤ across v s :=
  div_nonneg (Finset.sum_nonneg fun i _ => mul_self_nonneg _) two_pos.le

theorem across_eq (v : Fin (d + 1) → ℝ) (s : Tup d) :
    across v s = (∑ i : Fin d, s.mom i.succ * s.mom i.succ) / 2 - ∑ i : Fin d, s.mom i.succ * v i.succ +
      (∑ i : Fin d, v i.succ * v i.succ) / 2 := by
  have : ∑ i : Fin d, (s.mom i.succ - v i.succ) * (s.mom i.succ - v i.succ) =
      ∑ i : Fin d, s.mom i.succ * s.mom i.succ - 2 * ∑ i : Fin d, s.mom i.succ * v i.succ +
        ∑ i : Fin d, v i.succ * v i.succ := by
    rw [Finset.mul_sum, ← Finset.sum_sub_distrib, ← Finset.sum_add_distrib]
    exact Finset.sum_congr rfl fun i _ => by ring
  rw [across, this]
  ring

theorem ell_cons (γ : ℝ) (v : Fin (d + 1) → ℝ) (s : Tup d) :
    ell v (toCons γ s) = L γ (v 0) (across v s) (P3.of s) := by
  simp only [ell, toCons, dynamicPressure, L, P3.of, across_eq]
  have e : ∑ i, s.mom i * s.mass * v i = s.mass * ∑ i, s.mom i * v i := by
    rw [Finset.mul_sum]; exact Finset.sum_congr rfl fun i _ => by ring
  rw [e, Fin.sum_univ_succ, Fin.sum_univ_succ (f := fun i => s.mom i * v i),
    Fin.sum_univ_succ (f := fun i => v i * v i)]
  ring

theorem ell_flux (γ : ℝ) (v : Fin (d + 1) → ℝ) (s : Tup d) :
    ell v (primFlux γ s) = Q γ (v 0) (across v s) (P3.of s) := by
  rw [Q, ← ell_cons]
  have e : ∀ i, (if i = 0 then s.mom 0 * (s.mom i * s.mass) + s.energy else s.mom 0 * (s.mom i * s.mass)) * v i =
      s.mom 0 * (s.mom i * s.mass * v i) + (if i = 0 then s.energy * v 0 else 0) := by
    intro i
    by_cases hi : i = 0
    · subst hi; simp only [if_true]; ring
    · simp only [if_neg hi]; ring
  simp only [ell, primFlux, toCons, Tup.scale, Pi.smul_apply, smul_eq_mul, P3.of, e, Finset.sum_add_distrib,
    ← Finset.mul_sum, Finset.sum_ite_eq', Finset.mem_univ, if_true]
  ring

end MiniCFD.Positive
