import Verif.Spec.LocalHex
import Verif.Model.LocalHex
import Verif.Props.Cell
import Verif.Props.Lagrange
import Mathlib.Analysis.Calculus.Deriv.Comp
import Mathlib.Analysis.Calculus.Deriv.Prod
import Mathlib.Analysis.Calculus.Deriv.Inv

/-! # The chain rule between local and physical coordinates -/

namespace MiniCFD.LocalHex

open MiniCFD.Shape MiniCFD.Cell MiniCFD.Spec.Shape MiniCFD.Spec.LocalHex
open scoped Topology

theorem form_apply (g v : Fin 3 → ℝ) : form g v = ∑ c, v c * g c := by
  simp [form, mul_comm]

theorem line_tendsto (p : Point ℝ 3) (a : Fin 3) :
    Filter.Tendsto (fun s => Function.update p a s) (𝓝 (p a)) (𝓝 p) := by
  have h : Continuous fun s : ℝ => Function.update p a s := continuous_const.update a continuous_id
  have := h.tendsto (p a)
  rwa [Function.update_eq_self] at this

theorem partial_congr {f f' : Point ℝ 3 → ℝ} {a : Fin 3} {v : ℝ} {p : Point ℝ 3}
    (h : HasPartial f a v p) (he : ∀ᶠ q in 𝓝 p, f' q = f q) : HasPartial f' a v p :=
  HasDerivAt.congr_of_eventuallyEq h ((line_tendsto p a).eventually he)

theorem partial_unique {f : Point ℝ 3 → ℝ} {a : Fin 3} {v w : ℝ} {p : Point ℝ 3}
    (h : HasPartial f a v p) (h' : HasPartial f a w p) : v = w := HasDerivAt.unique h h'

theorem partial_continuous {f : Point ℝ 3 → ℝ} {a : Fin 3} {v : ℝ} {p : Point ℝ 3}
    (h : HasPartial f a v p) : Filter.Tendsto (fun s => f (Function.update p a s)) (𝓝 (p a)) (𝓝 (f p)) := by
  have := HasDerivAt.continuousAt h
  simpa [ContinuousAt] using this

theorem chain_partial {X : Point ℝ 3 → Point ℝ 3} {J g : Fin 3 → ℝ} {a : Fin 3} {p : Point ℝ 3}
    (hX : ∀ c, HasPartial (fun q => X q c) a (J c) p) {u : Point ℝ 3 → ℝ} (hu : HasGradient u g (X p)) :
    HasPartial (fun q => u (X q)) a (∑ c, J c * g c) p := by
  have h1 : HasDerivAt (fun s => X (Function.update p a s)) J (p a) := hasDerivAt_pi.2 hX
  have h2 : HasFDerivAt u (form g) (X (Function.update p a (p a))) := by
    rw [Function.update_eq_self]; exact hu
  have := h2.comp_hasDerivAt (p a) h1
  rw [form_apply] at this
  exact this

/-- The first derivatives of `u`. -/
theorem gradient_eq {X : Point ℝ 3 → Point ℝ 3} {J : Mat} {U D u : Point ℝ 3 → ℝ} {Ug Dg g : Fin 3 → ℝ}
    {p : Point ℝ 3} (hX : ∀ a c, HasPartial (fun q => X q c) a (J a c) p)
    (hU : ∀ a, HasPartial U a (Ug a) p) (hD : ∀ a, HasPartial D a (Dg a) p) (h0 : D p ≠ 0)
    (hr : Represents X (fun q => U q / D q) p u) (hu : HasGradient u g (X p)) (a : Fin 3) :
    ∑ c, J a c * g c = (Ug a * D p - U p * Dg a) / D p ^ 2 := by
  have h1 := chain_partial (hX a) hu
  have h2 : HasPartial (fun q => U q / D q) a ((Ug a * D p - U p * Dg a) / D p ^ 2) p := by
    have := HasDerivAt.div (hU a) (hD a) (by rw [Function.update_eq_self]; exact h0)
    simp only [Function.update_eq_self] at this
    exact this
  exact partial_unique h1 (partial_congr h2 hr)

/-- The second derivatives of `u`. -/
theorem hessian_eq {X : Point ℝ 3 → Point ℝ 3} {J : Point ℝ 3 → Mat} {dJ : Fin 3 → Mat}
    {U D u : Point ℝ 3 → ℝ} {Ug Dg : Point ℝ 3 → Fin 3 → ℝ} {Uh Dh h : Fin 3 → Fin 3 → ℝ} {p : Point ℝ 3}
    (hX : ∀ q a c, HasPartial (fun q => X q c) a (J q a c) q)
    (hJ : ∀ a b c, HasPartial (fun q => J q a c) b (dJ b a c) p)
    (hU : ∀ q a, HasPartial U a (Ug q a) q) (hUg : ∀ a b, HasPartial (fun q => Ug q a) b (Uh a b) p)
    (hD : ∀ q a, HasPartial D a (Dg q a) q) (hDg : ∀ a b, HasPartial (fun q => Dg q a) b (Dh a b) p)
    (h0 : D p ≠ 0) (hr : Represents X (fun q => U q / D q) p u) (hu : HasHessian u h (X p)) :
    ∃ g, HasGradient u g (X p) ∧ ∀ a b, ∑ c, (dJ b a c * g c + J p a c * ∑ d, J p b d * h c d)
      = ((Uh a b * D p + Ug p a * Dg p b - (Ug p b * Dg p a + U p * Dh a b)) * D p ^ 2
          - (Ug p a * D p - U p * Dg p a) * (2 * D p * Dg p b)) / (D p ^ 2) ^ 2 := by
  obtain ⟨G, hG, hh⟩ := hu
  refine ⟨G (X p), hG.self_of_nhds, fun a b => ?_⟩
  -- both sides as functions along the line
  have left : HasPartial (fun q => ∑ c, J q a c * G (X q) c) b
      (∑ c, (dJ b a c * G (X p) c + J p a c * ∑ d, J p b d * h c d)) p := by
    refine HasDerivAt.fun_sum fun c _ => ?_
    have h1 := HasDerivAt.mul (hJ a b c) (chain_partial (hX p b) (hh c))
    simp only [Function.update_eq_self] at h1
    exact h1
  have right := by
    have h1 := HasDerivAt.div
      (HasDerivAt.sub (HasDerivAt.mul (hUg a b) (hD p b)) (HasDerivAt.mul (hU p b) (hDg a b)))
      (HasDerivAt.fun_pow (hD p b) 2) (by
        simp only [Function.update_eq_self]; exact pow_ne_zero 2 h0)
    exact h1
  have he : ∀ᶠ s in 𝓝 (p b), (∑ c, J (Function.update p b s) a c * G (X (Function.update p b s)) c)
      = (Ug (Function.update p b s) a * D (Function.update p b s)
          - U (Function.update p b s) * Dg (Function.update p b s) a) / D (Function.update p b s) ^ 2 := by
    have hXs : Filter.Tendsto (fun s => X (Function.update p b s)) (𝓝 (p b)) (𝓝 (X p)) := by
      rw [tendsto_pi_nhds]
      intro c
      exact partial_continuous (hX p b c)
    filter_upwards [(line_tendsto p b).eventually hr.eventually_nhds, hXs.eventually hG,
      (partial_continuous (hD p b)).eventually_ne h0] with s h1 h2 h3
    exact gradient_eq (hX _) (hU _) (hD _) h3 h1 h2 a
  have hf := HasDerivAt.unique left (HasDerivAt.congr_of_eventuallyEq right he)
  rw [hf]
  simp only [Function.update_eq_self, Pi.sub_apply, Pi.mul_apply, Nat.cast_ofNat]
  ring

end MiniCFD.LocalHex
