import Verif.Props.PyEnergy
import Verif.Props.PyDiffusion
import Verif.Lemmas.EnergyRK
import Mathlib.Topology.MetricSpace.ProperSpace.Real
import Mathlib.Analysis.Normed.Module.FiniteDimension

/-! # Lemmas on the linear system of the discontinuous Galerkin schemes for advection and diffusion -/

namespace MiniCFD.PyEnergyRK
open MiniCFD.PyQuad MiniCFD.PyExpansion MiniCFD.PyDG MiniCFD.PyEnergy Polynomial

/-- Continuous forms of degree two on a space of finite dimension are bounded by definite ones. -/
theorem form_bounded {V : Type*} [NormedAddCommGroup V] [NormedSpace ℝ V] [FiniteDimensional ℝ V] {f g : V → ℝ}
    (hf : Continuous f) (hg : Continuous g) (h2f : ∀ (c : ℝ) u, f (c • u) = c ^ 2 * f u)
    (h2g : ∀ (c : ℝ) u, g (c • u) = c ^ 2 * g u) (hpos : ∀ u, u ≠ 0 → 0 < g u) :
    ∃ M : ℝ, 0 ≤ M ∧ ∀ u, f u ≤ M * g u := by
  have := FiniteDimensional.proper ℝ V
  have hz : ∀ (k : V → ℝ), (∀ (c : ℝ) u, k (c • u) = c ^ 2 * k u) → k 0 = 0 := by
    intro k hk
    have := hk 0 0
    simpa using this
  by_cases hne : (Metric.sphere (0 : V) 1).Nonempty
  · obtain ⟨w, hw, hmax⟩ := (isCompact_sphere (0 : V) 1).exists_isMaxOn hne
      (f := fun u => f u / g u) (hf.continuousOn.div hg.continuousOn fun u hu => (hpos u (by
        rintro rfl; simp at hu)).ne')
    refine ⟨max (f w / g w) 0, le_max_right _ _, fun u => ?_⟩
    by_cases hu : u = 0
    · rw [hu, hz f h2f, hz g h2g, mul_zero]
    have hn : ‖u‖ ≠ 0 := norm_ne_zero_iff.2 hu
    have hv : ‖u‖⁻¹ • u ∈ Metric.sphere (0 : V) 1 := by
      rw [mem_sphere_zero_iff_norm, norm_smul, norm_inv, norm_norm, inv_mul_cancel₀ hn]
    have h1 : f (‖u‖⁻¹ • u) / g (‖u‖⁻¹ • u) ≤ f w / g w := hmax hv
    rw [h2f, h2g, mul_div_mul_left _ _ (pow_ne_zero 2 (inv_ne_zero hn)), div_le_iff₀ (hpos u hu)] at h1
    exact h1.trans (mul_le_mul_of_nonneg_right (le_max_left _ _) (hpos u hu).le)
  · refine ⟨0, le_rfl, fun u => ?_⟩
    have hu : u = 0 := by
      by_contra hu
      refine hne ⟨‖u‖⁻¹ • u, ?_⟩
      rw [mem_sphere_zero_iff_norm, norm_smul, norm_inv, norm_norm, inv_mul_cancel₀ (norm_ne_zero_iff.2 hu)]
    rw [hu, hz f h2f, hz g h2g, mul_zero]

variable {p n : Nat}

theorem integrate_linear {m : Nat} (q : Integrator m) (c : ℝ) (f g : ℝ → ℝ) :
    q.integrate (fun x => c * f x + g x) = c * q.integrate f + q.integrate g := by
  simp only [Integrator.integrate_eq, smul_eq_mul, Finset.mul_sum]
  rw [← Finset.sum_add_distrib]
  exact Finset.sum_congr rfl fun j _ => by ring

/-! ### The residual is linear -/

theorem boundary_linear (s : Setup p) (k : Nat) (left : Bool) (c : ℝ) (u v : Fin (p + 1) → ℝ) :
    boundaryDerivatives s (setCoeff s (c • u + v)) k left =
      c * boundaryDerivatives s (setCoeff s u) k left + boundaryDerivatives s (setCoeff s v) k left := by
  have hsum : ∀ w : Fin (p + 1) → ℝ, ∑ i, w i • (c • u + v) i = c * ∑ i, w i • u i + ∑ i, w i • v i := by
    intro w
    rw [Finset.mul_sum, ← Finset.sum_add_distrib]
    refine Finset.sum_congr rfl fun i _ => ?_
    simp only [Pi.add_apply, Pi.smul_apply, smul_eq_mul]; ring
  unfold boundaryDerivatives nodeDerivatives
  simp only [setCoeff]
  split
  · by_cases hk : k = 0
    · simp only [hk, if_true]; rfl
    · simp only [hk, if_false]; exact hsum _
  · exact hsum _

theorem taylor_linear (s : Setup p) (c : ℝ) (u v : Fin (p + 1) → ℝ) :
    (setCoeff s (c • u + v)).taylor = c • (setCoeff s u).taylor + (setCoeff s v).taylor := by
  funext i
  simp only [setCoeff, PyExpansion.apply, Pi.add_apply, Pi.smul_apply, smul_eq_mul, Finset.mul_sum]
  rw [← Finset.sum_add_distrib]
  exact Finset.sum_congr rfl fun j _ => by ring

theorem value_linear (s : Setup p) (c : ℝ) (u v : Fin (p + 1) → ℝ) (x : ℝ) :
    s.value (setCoeff s (c • u + v)) x = c * s.value (setCoeff s u) x + s.value (setCoeff s v) x := by
  simp only [Setup.value, taylorValue, taylor_linear, Pi.add_apply, Pi.smul_apply, smul_eq_mul, Finset.mul_sum]
  rw [← Finset.sum_add_distrib]
  exact Finset.sum_congr rfl fun j _ => by ring

theorem gradient_linear (s : Setup p) (c : ℝ) (u v : Fin (p + 1) → ℝ) (x : ℝ) :
    taylorGradient s.coordinate.xCenter (setCoeff s (c • u + v)).taylor x =
      c * taylorGradient s.coordinate.xCenter (setCoeff s u).taylor x +
        taylorGradient s.coordinate.xCenter (setCoeff s v).taylor x := by
  simp only [taylorGradient, taylor_linear, Pi.add_apply, Pi.smul_apply, smul_eq_mul, Finset.mul_sum]
  rw [← Finset.sum_add_distrib]
  exact Finset.sum_congr rfl fun j _ => by ring

theorem upwind_eq (a b l r : ℝ) :
    (physics (PyScalar.linearSolver a b)).upwind l r = a * (if 0 ≤ a then l else r) := by
  by_cases h : 0 ≤ a <;>
    simp [physics, PyScalar.Solver.upwindFlux, PyScalar.Solver.getValue, PyScalar.linearSolver, PyScalar.linear, h]

theorem dgFluxAt_linear (a b : ℝ) (s : Setup p) (c : ℝ) (u v : Fin (p + 1) → ℝ) (x : ℝ) :
    dgFluxAt (physics (PyScalar.linearSolver a b)) ⟨s, setCoeff s (c • u + v), none⟩ x =
      c * dgFluxAt (physics (PyScalar.linearSolver a b)) ⟨s, setCoeff s u, none⟩ x +
        dgFluxAt (physics (PyScalar.linearSolver a b)) ⟨s, setCoeff s v, none⟩ x := by
  have e : ∀ w : Fin (p + 1) → ℝ, dgFluxAt (physics (PyScalar.linearSolver a b)) ⟨s, setCoeff s w, none⟩ x =
      a * s.value (setCoeff s w) x - b * taylorGradient s.coordinate.xCenter (setCoeff s w).taylor x := by
    intro w
    by_cases hb : b = 0 <;>
      simp [dgFluxAt, dgFlux, physics, PyScalar.linearSolver, PyScalar.linear, PyScalar.Equation.diffusiveFlux,
        Cell.extra, hb]
  rw [e, e, e, value_linear, gradient_linear]; ring

theorem interface_linear (a b : ℝ) (s s' : Setup p) (c : ℝ) (u v u' v' : Fin (p + 1) → ℝ) :
    interface (physics (PyScalar.linearSolver a b)) ⟨s, setCoeff s (c • u + v), none⟩
        ⟨s', setCoeff s' (c • u' + v'), none⟩ =
      c • interface (physics (PyScalar.linearSolver a b)) ⟨s, setCoeff s u, none⟩ ⟨s', setCoeff s' u', none⟩ +
        interface (physics (PyScalar.linearSolver a b)) ⟨s, setCoeff s v, none⟩ ⟨s', setCoeff s' v', none⟩ := by
  have hco : ∀ w, (physics (PyScalar.linearSolver a b)).coefficient w = b := fun w => rfl
  have hdi : ∀ w dw nu, (physics (PyScalar.linearSolver a b)).diffusive w dw nu = (b + nu) * dw := fun w dw nu => rfl
  unfold interface
  simp only [upwind_eq, hco, hdi, Cell.extra, boundary_linear, min_self, interfaceGradient, zero_add, add_zero, smul_eq_mul]
  by_cases hb : b = 0
  · rw [if_pos hb, if_pos hb, if_pos hb]
    refine Prod.ext ?_ ?_
    · show _ = c * _ + _
      split_ifs <;> ring
    · show _ = c * _ + _
      ring
  · rw [if_neg hb, if_neg hb, if_neg hb]
    refine Prod.ext ?_ ?_
    · show _ = c * _ + _
      split_ifs <;> ring
    · show _ = c * _ + _
      ring

theorem leftFace_linear (a b : ℝ) (setup : Fin (n + 2) → Setup p) (c : ℝ) (u v : Fin (n + 2) → Fin (p + 1) → ℝ)
    (i : Fin (n + 2)) : leftFace (physics (PyScalar.linearSolver a b)) (grid setup (c • u + v)) i =
      c • leftFace (physics (PyScalar.linearSolver a b)) (grid setup u) i +
        leftFace (physics (PyScalar.linearSolver a b)) (grid setup v) i := by
  unfold leftFace
  split_ifs
  · exact interface_linear a b _ _ c _ _ _ _
  · exact interface_linear a b _ _ c _ _ _ _

theorem rightFace_linear (a b : ℝ) (setup : Fin (n + 2) → Setup p) (c : ℝ) (u v : Fin (n + 2) → Fin (p + 1) → ℝ)
    (i : Fin (n + 2)) : rightFace (physics (PyScalar.linearSolver a b)) (grid setup (c • u + v)) i =
      c • rightFace (physics (PyScalar.linearSolver a b)) (grid setup u) i +
        rightFace (physics (PyScalar.linearSolver a b)) (grid setup v) i := by
  unfold rightFace
  split_ifs
  · exact leftFace_linear a b setup c u v 0
  · exact leftFace_linear a b setup c u v (i + 1)

theorem field_linear (s : Setup p) (c : ℝ) (u v : Fin (p + 1) → ℝ) (x : ℝ) :
    field s (c • u + v) x = c * field s u x + field s v x := value_linear s c u v x

/-- The residual is linear in the coefficients. -/
theorem residual_linear {co : Fin (n + 2) → Coordinate} (hc : ∀ i, (co i).xLeft < (co i).xRight) (a b : ℝ)
    (setup : Fin (n + 2) → Setup p) (hb : ∀ i, Built (co i) (setup i)) (c : ℝ)
    (u v : Fin (n + 2) → Fin (p + 1) → ℝ) (i : Fin (n + 2)) {ru rv rw : Fin (p + 1) → ℝ}
    (hu : residual (physics (PyScalar.linearSolver a b)) (grid setup u) i = some ru)
    (hv : residual (physics (PyScalar.linearSolver a b)) (grid setup v) i = some rv)
    (hw : residual (physics (PyScalar.linearSolver a b)) (grid setup (c • u + v)) i = some rw) :
    rw = c • ru + rv := by
  obtain ⟨r1, h1, w1⟩ := weak_form (hc i) (physics (PyScalar.linearSolver a b)) ((grid setup u).cells i) (hb i)
    (.coeff (u i) rfl) (faceData _ (grid setup u) i)
  obtain ⟨r2, h2, w2⟩ := weak_form (hc i) (physics (PyScalar.linearSolver a b)) ((grid setup v).cells i) (hb i)
    (.coeff (v i) rfl) (faceData _ (grid setup v) i)
  obtain ⟨r3, h3, w3⟩ := weak_form (hc i) (physics (PyScalar.linearSolver a b)) ((grid setup (c • u + v)).cells i) (hb i)
    (.coeff ((c • u + v) i) rfl) (faceData _ (grid setup (c • u + v)) i)
  obtain rfl := Option.some.inj (h1.symm.trans hu)
  obtain rfl := Option.some.inj (h2.symm.trans hv)
  obtain rfl := Option.some.inj (h3.symm.trans hw)
  rw [← sub_eq_zero]
  refine residual_unique (hc i) (hb i) _ fun φ hφ => ?_
  have e1 := w1 φ hφ
  have e2 := w2 φ hφ
  have e3 := w3 φ hφ
  have hs : ∀ x, φ.eval x • field (setup i) (r3 - (c • r1 + r2)) x =
      φ.eval x • field (setup i) r3 x - (c * (φ.eval x • field (setup i) r1 x) + φ.eval x • field (setup i) r2 x) := by
    intro x
    have : r3 - (c • r1 + r2) = (-1 : ℝ) • (c • r1 + r2) + r3 := by module
    rw [this, field_linear, field_linear]
    simp only [smul_eq_mul]; ring
  have hd : ∀ x, (derivative φ).eval x • dgFluxAt (physics (PyScalar.linearSolver a b)) ((grid setup (c • u + v)).cells i) x =
      c * ((derivative φ).eval x • dgFluxAt (physics (PyScalar.linearSolver a b)) ((grid setup u).cells i) x) +
        (derivative φ).eval x • dgFluxAt (physics (PyScalar.linearSolver a b)) ((grid setup v).cells i) x := by
    intro x
    have := dgFluxAt_linear a b (setup i) c (u i) (v i) x
    simp only [smul_eq_mul]
    exact (congrArg ((derivative φ).eval x * ·) this).trans (by simp only [grid]; ring)
  have hL := leftFace_linear a b setup c u v i
  have hR := rightFace_linear a b setup c u v i
  simp only [faceData, hL, hR, hd] at e1 e2 e3
  simp only [smul_eq_mul, Prod.fst_add, Prod.snd_add, Prod.smul_fst, Prod.smul_snd] at e1 e2 e3
  rw [integrate_linear] at e3
  have hs' : (fun x => φ.eval x • field (setup i) (r3 - (c • r1 + r2)) x) = fun x =>
      (-1) * (c * (φ.eval x * field (setup i) r1 x) + φ.eval x * field (setup i) r2 x) + φ.eval x * field (setup i) r3 x := by
    funext x; rw [hs]; simp only [smul_eq_mul]; ring
  rw [hs', integrate_linear, integrate_linear]
  refine (congrArg₂ (fun y z => -1 * y + z) (congrArg₂ (fun y z => c * y + z) e1 e2) e3).trans ?_
  simp only [grid]
  ring

/-! ### The energy form -/

/-- What `energy` is the half of, for two columns. -/
noncomputable def form (setup : Fin (n + 2) → Setup p) (u v : Fin (n + 2) → Fin (p + 1) → ℝ) : ℝ :=
  ∑ i, (setup i).integrator.integrate fun x => field (setup i) (u i) x * field (setup i) (v i) x

theorem energy_form (setup : Fin (n + 2) → Setup p) (u : Fin (n + 2) → Fin (p + 1) → ℝ) :
    energy (grid setup u) = form setup u u / 2 := by
  rw [energy, form, Finset.sum_div]
  refine Finset.sum_congr rfl fun i _ => ?_
  simp only [pow_two]; rfl

theorem form_symm (setup : Fin (n + 2) → Setup p) (u v : Fin (n + 2) → Fin (p + 1) → ℝ) :
    form setup u v = form setup v u := by
  simp only [form, mul_comm]

theorem form_linear (setup : Fin (n + 2) → Setup p) (c : ℝ) (u v w : Fin (n + 2) → Fin (p + 1) → ℝ) :
    form setup (c • u + v) w = c * form setup u w + form setup v w := by
  unfold form
  rw [Finset.mul_sum, ← Finset.sum_add_distrib]
  refine Finset.sum_congr rfl fun i _ => ?_
  rw [← integrate_linear]
  congr 1
  funext x
  rw [show (c • u + v) i = c • u i + v i from rfl, field_linear]
  ring

/-- The form as a bilinear map. -/
noncomputable def bilinear (setup : Fin (n + 2) → Setup p) :
    (Fin (n + 2) → Fin (p + 1) → ℝ) →ₗ[ℝ] (Fin (n + 2) → Fin (p + 1) → ℝ) →ₗ[ℝ] ℝ :=
  LinearMap.mk₂ ℝ (form setup)
    (fun u v w => by simpa using form_linear setup 1 u v w)
    (fun c u w => by
      have h0 : form setup 0 w = 0 := by have := form_linear setup 1 0 0 w; simp at this; exact this
      have := form_linear setup c u 0 w
      simpa [h0] using this)
    (fun w u v => by
      have := form_linear setup 1 u v w
      simp only [form_symm setup _ w, one_smul, one_mul] at this
      exact this)
    (fun c w u => by
      have h0 : form setup 0 w = 0 := by have := form_linear setup 1 0 0 w; simp at this; exact this
      have := form_linear setup c u 0 w
      simp only [form_symm setup _ w, add_zero] at this h0
      rw [this, h0, add_zero, smul_eq_mul])

theorem bilinear_apply (setup : Fin (n + 2) → Setup p) (u v : Fin (n + 2) → Fin (p + 1) → ℝ) :
    bilinear setup u v = form setup u v := rfl

/-- The energy of an element is positive unless its coefficients are zero. -/
theorem cell_definite {c : Coordinate} (hc : c.xLeft < c.xRight) {s : Setup p} (h : Built c s) (w : Fin (p + 1) → ℝ) :
    0 ≤ s.integrator.integrate (fun x => field s w x * field s w x) ∧
    (s.integrator.integrate (fun x => field s w x * field s w x) = 0 → w = 0) := by
  by_cases hk : s.kind = .lobatto
  · have hM : s.integrator.integrate (fun x => field s w x * field s w x) =
        ∑ i, s.integrator.weights i * w i ^ 2 := by
      have e : s.integrator.integrate (fun x => field s w x * field s w x) =
          ∑ i, ∑ j, s.innerProducts i j * (w i * w j) := by
        simp only [Setup.innerProducts, Integrator.integrate_eq, field_eq hc h, smul_eq_mul, Finset.sum_mul_sum,
          Finset.mul_sum, Finset.sum_mul]
        rw [Finset.sum_comm]
        refine Finset.sum_congr rfl fun i _ => ?_
        rw [Finset.sum_comm]
        exact Finset.sum_congr rfl fun j _ => Finset.sum_congr rfl fun k _ => by ring
      rw [e]
      refine Finset.sum_congr rfl fun i _ => ?_
      rw [Finset.sum_eq_single i]
      · rw [(mass_matrix hc h i i).2.1 (.inr hk), if_pos rfl]; ring
      · intro j _ hj
        rw [(mass_matrix hc h i j).2.1 (.inr hk), if_neg hj.symm, zero_mul]
      · simp
    have hpos : ∀ i, 0 < s.integrator.weights i := by
      intro i
      have := diag_pos hc h i
      rwa [(mass_matrix hc h i i).2.1 (.inr hk), if_pos rfl] at this
    rw [hM]
    have hn : ∀ i ∈ Finset.univ, 0 ≤ s.integrator.weights i * w i ^ 2 := fun i _ =>
      mul_nonneg (hpos i).le (sq_nonneg _)
    refine ⟨Finset.sum_nonneg hn, fun h0 => funext fun i => ?_⟩
    have := (Finset.sum_eq_zero_iff_of_nonneg hn).1 h0 i (Finset.mem_univ i)
    rcases mul_eq_zero.1 this with h1 | h1
    · exact absurd h1 (hpos i).ne'
    · exact pow_eq_zero_iff (two_ne_zero) |>.1 h1
  · obtain ⟨U, hU, hv⟩ := exists_poly hc h (st := setCoeff s w) (.coeff w rfl)
    have hf : ∀ x, field s w x = U.eval x := fun x => congrFun hv x
    have e := weak_form_exact hc h hk w U hU
    simp only [hf, smul_eq_mul, ← pow_two] at e
    simp only [hf, ← pow_two]
    rw [e]
    refine ⟨intervalIntegral.integral_nonneg hc.le fun x _ => sq_nonneg _, fun h0 => ?_⟩
    have hU0 : U = 0 := by
      by_contra hne
      exact (integral_sq_pos hc hne).ne' h0
    refine basis_ne_zero hc h w fun x => ?_
    have := field_eq hc h w x
    rw [hf, hU0, eval_zero] at this
    rw [this]
    exact Finset.sum_congr rfl fun i _ => by rw [smul_eq_mul, mul_comm]

theorem form_nonneg {co : Fin (n + 2) → Coordinate} (hc : ∀ i, (co i).xLeft < (co i).xRight)
    {setup : Fin (n + 2) → Setup p} (hb : ∀ i, Built (co i) (setup i)) (u : Fin (n + 2) → Fin (p + 1) → ℝ) :
    0 ≤ form setup u u := Finset.sum_nonneg fun i _ => (cell_definite (hc i) (hb i) (u i)).1

theorem form_definite {co : Fin (n + 2) → Coordinate} (hc : ∀ i, (co i).xLeft < (co i).xRight)
    {setup : Fin (n + 2) → Setup p} (hb : ∀ i, Built (co i) (setup i)) {u : Fin (n + 2) → Fin (p + 1) → ℝ}
    (hu : u ≠ 0) : 0 < form setup u u := by
  refine (form_nonneg hc hb u).lt_of_ne fun h0 => hu (funext fun i => ?_)
  exact (cell_definite (hc i) (hb i) (u i)).2
    ((Finset.sum_eq_zero_iff_of_nonneg fun i _ => (cell_definite (hc i) (hb i) (u i)).1).1 h0.symm i (Finset.mem_univ i))

/-- Linear maps are bounded in energy. -/
theorem energy_bounded {co : Fin (n + 2) → Coordinate} (hc : ∀ i, (co i).xLeft < (co i).xRight)
    {setup : Fin (n + 2) → Setup p} (hb : ∀ i, Built (co i) (setup i))
    (L : (Fin (n + 2) → Fin (p + 1) → ℝ) →ₗ[ℝ] (Fin (n + 2) → Fin (p + 1) → ℝ)) :
    ∃ M : ℝ, 0 ≤ M ∧ ∀ u, form setup (L u) (L u) ≤ M * form setup u u := by
  have hcont : Continuous fun u => form setup u u := by
    simp only [form, Integrator.integrate_eq, field_eq (hc _) (hb _)]
    fun_prop
  have hLc : Continuous L := L.continuous_of_finiteDimensional
  have h2 : ∀ (c : ℝ) u, form setup (c • u) (c • u) = c ^ 2 * form setup u u := by
    intro c u
    simp only [← bilinear_apply, map_smul, LinearMap.smul_apply, smul_eq_mul]; ring
  exact form_bounded (f := fun u => form setup (L u) (L u)) (g := fun u => form setup u u) (hcont.comp hLc) hcont
    (fun c u => by rw [map_smul, h2]) h2 (fun u hu => form_definite hc hb hu)

end MiniCFD.PyEnergyRK
