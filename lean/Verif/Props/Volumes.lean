import Verif.Lemmas.VolumesMesh
import Verif.Props.RK
import Verif.Props.Energy
import Mathlib.Tactic.FinCases

/-!
# C131: at degree zero scalar laws keep to their bounds

`dg::General` of degree zero with `rotated::Single` or `rotated::Burgers` and any of the Runge–Kutta methods.
-/

namespace MiniCFD.Volumes

open MiniCFD.Energy MiniCFD.Spec.Energy MiniCFD.Spec.Volumes MiniCFD.Residual MiniCFD.Projection MiniCFD.Ortho
open MiniCFD.RK

variable {Pt : Type} {m : Mesh Pt 0} (law : Law) (a : Fin 3 → ℝ) (junk : Value 1 → Value 1 → Value 1)
variable {c : Conditions Pt 1} {κ : Fin m.count → ℝ}

/-! ### Columns and values -/

/-- The value in a cell. -/
def hold (κ : Fin m.count → ℝ) (u : Fin m.count → Coeff 1 0) (p : Fin m.count) : ℝ := u p 0 0 * κ p

theorem sol_hold (hκ : Constant m κ) (p : Fin m.count) (v : Fin (0 + 1) → ℝ) (x : Pt) :
    sol m p v x = v 0 * κ p := by
  have : sol m p v x = ∑ i : Fin 1, v i * basisValues (m.basis p) x i := rfl
  rw [this, Fin.sum_univ_one, hκ]

theorem integrate_const (r : ℝ) (rule : Rule Pt) : integrate (fun _ => r) rule = r * integrate (fun _ => 1) rule := by
  have := integrate_lin2 rule r 0 (fun _ => 1) (fun _ => 0)
  simpa using this

theorem volume_eq (hr : Regular m c) (hκ : Constant m κ) (p : Fin m.count) : κ p * κ p * volume m p = 1 := by
  have := hr.orth p 0 0
  simp only [hκ p] at this
  rw [integrate_const] at this
  simpa [volume] using this

theorem volume_pos (hr : Regular m c) (hκ : Constant m κ) (p : Fin m.count) : 0 < volume m p := by
  have h := volume_eq hr hκ p
  have h2 := mul_self_nonneg (κ p)
  by_contra hn
  have := mul_nonpos_of_nonneg_of_nonpos h2 (not_lt.1 hn)
  linarith

/-- A step of Euler's method. -/
theorem euler_next (hr : Regular m c) (hs : Supported c) (hκ : Constant m κ) (t dt : ℝ)
    (u : Fin m.count → Coeff 1 0) :
    hold κ (u + dt • m.rates law a junk c t u) = next m law a c t dt (hold κ u) := by
  funext p
  have hv := volume_pos hr hκ p
  have h := rate_eq m law a junk hr t u p 0 (fun j => if j = 0 then 1 else 0) rfl
  rw [jobs_plain hs.subsonicInlet hs.subsonicOutlet hs.smart] at h
  have hsl : ∀ v x k, Spec.Energy.slope m p v x k = 0 := by
    intro v x k
    simp only [Spec.Energy.slope]
    exact Finset.sum_eq_zero fun i _ => by rw [hr.flat rfl, mul_zero]
  simp only [hsl, mul_zero, integrate_const 0, zero_mul, Finset.sum_const_zero, zero_sub, sol_hold hκ, List.map_append,
    List.sum_append, List.map_map, Function.comp_def, Point.face, riemann, aNormal_along, ite_self, rim_zero,
    if_true, one_mul] at h
  have hf : ∀ (points : List (Point Pt)) (g : Point Pt → ℝ) (s : ℝ),
      face points (fun q => g q * s) = s * face points g := by
    intro points g s
    have := face_lin2 points s 0 g g
    simp only [zero_mul, add_zero] at this
    rw [← this]
    refine congrArg (face points) (_root_.funext fun q => ?_)
    ring
  have hm : ∀ (name : String) (g : Point Pt → ℝ) (s : ℝ),
      rim m name (fun h q => if h = p then g q * s else 0) = s * rim m name (fun h q => if h = p then g q else 0) := by
    intro name g s
    have := rim_lin2 m name s 0 (fun h q => if h = p then g q else 0) (fun h q => if h = p then g q else 0)
    simp only [zero_mul, add_zero] at this
    rw [← this]
    refine congrArg (rim m name) (_root_.funext fun h => _root_.funext fun q => ?_)
    split_ifs <;> ring
  have hi : ∀ (b : Prop) [Decidable b] (x s : ℝ), (if b then s * x else 0) = s * (if b then x else 0) := by
    intro b _ x s
    split_ifs <;> simp
  have hk : m.rates law a junk c t u p 0 0 = -(κ p * out m law a c t (hold κ u) p) := by
    refine h.trans ?_
    simp only [hf, hm]
    simp only [hi, ← mul_sub, sum_map_mul', out, hold]
    simp
    ring
  show (u p 0 0 + dt * m.rates law a junk c t u p 0 0) * κ p = _
  rw [hk]
  simp only [next, hold]
  have e := volume_eq hr hκ p
  have e2 : κ p * κ p = 1 / volume m p := by
    rw [eq_div_iff hv.ne']; exact e
  calc (u p 0 0 + dt * -(κ p * out m law a c t (hold κ u) p)) * κ p
      = u p 0 0 * κ p - dt * (κ p * κ p) * out m law a c t (hold κ u) p := by ring
    _ = _ := by rw [e2]; ring

variable {law a} in
theorem hold_lin (u w : Fin m.count → Coeff 1 0) (x y : ℝ) (p : Fin m.count) :
    hold κ (x • u + y • w) p = x * hold κ u p + y * hold κ w p := by
  simp only [hold, Pi.add_apply, Pi.smul_apply, smul_eq_mul]
  ring

theorem distance_hold (hκ : Constant m κ) (u w : Fin m.count → Coeff 1 0) :
    distance m u w = ∑ p, volume m p * |hold κ u p - hold κ w p| := by
  refine Finset.sum_congr rfl fun p _ => ?_
  simp only [sol_hold hκ]
  rw [integrate_const, mul_comm]
  rfl

/-- Two runs side by side are one run of the pair. -/
theorem run_pair {V : Type*} [AddCommGroup V] [Module ℝ V] (k : Stepper) (R : ℝ → V → V) (t dt : ℝ) (N : ℕ)
    (s w : Sys ℝ V) (q : Sys ℝ (V × V)) (hq : q.sol = (s.sol, w.sol)) :
    (run k (fun t p => (R t p.1, R t p.2)) t dt N q).sol = ((run k R t dt N s).sol, (run k R t dt N w).sol) := by
  induction N with
  | zero => exact hq
  | succ N ih =>
    show (RK.update k _ _ dt (run k _ t dt N q)).sol = ((RK.update k R _ dt (run k R t dt N s)).sol,
      (RK.update k R _ dt (run k R t dt N w)).sol)
    generalize run k (fun t p => (R t p.1, R t p.2)) t dt N q = q' at ih ⊢
    cases k <;>
      simp only [RK.update, update1, update2, update3, eulerUpdate, nextSolution, Sys.residual, Sys.setTime, Sys.setSol,
        ih] <;> rfl

/-! ### The theorems -/

section

variable (hr : Regular m c) (hs : Supported c) (hκ : Constant m κ) (hc : Closed m c) {A B dt : ℝ}
  (hi : Inflow m law a c A B) (h0 : 0 ≤ dt) (hC : Courant m law a c A B dt)
include hr hs hκ hc hi h0 hC

/-- **C131.** The maximum principle: all values stay between bounds which those at the start and the inflow respect. -/
theorem bounds [Nonempty Pt] (k : Stepper) (t : ℝ) (N : ℕ) (s : Sys ℝ (Fin m.count → Coeff 1 0))
    (h : Within m A B s.sol) : Within m A B (run k (m.rates law a junk c) t dt N s).sol := by
  have key := strong_stability k (m.rates law a junk c) (fun u => ∀ p, A ≤ hold κ u p ∧ hold κ u p ≤ B)
    (fun u w hu hw x x0 x1 p => by
      rw [hold_lin]
      have y0 : 0 ≤ 1 - x := by linarith
      have k1 := mul_le_mul_of_nonneg_left (hu p).1 x0
      have k2 := mul_le_mul_of_nonneg_left (hu p).2 x0
      have k3 := mul_le_mul_of_nonneg_left (hw p).1 y0
      have k4 := mul_le_mul_of_nonneg_left (hw p).2 y0
      constructor <;> linarith)
    dt (fun t u hu => by
      rw [euler_next law a junk hr hs hκ]
      exact next_within law a (volume_pos hr hκ) h0 hr hs hc hi hC t hu) t N s
    (fun p => by
      have := h p (Classical.arbitrary Pt)
      rwa [sol_hold hκ] at this)
  intro p x
  rw [sol_hold hκ]
  exact key p

/-- **C131.** A solution that starts below another stays below it, if both have the same inflow. -/
theorem ordered [Nonempty Pt] (k : Stepper) (t : ℝ) (N : ℕ) (s w : Sys ℝ (Fin m.count → Coeff 1 0))
    (h : Within m A B s.sol) (h' : Within m A B w.sol) (hle : Below m s.sol w.sol) :
    Below m (run k (m.rates law a junk c) t dt N s).sol (run k (m.rates law a junk c) t dt N w).sol := by
  have key := strong_stability k (fun t p => (m.rates law a junk c t p.1, m.rates law a junk c t p.2))
    (fun u => (∀ p, A ≤ hold κ u.1 p ∧ hold κ u.2 p ≤ B) ∧ (∀ p, hold κ u.1 p ≤ hold κ u.2 p))
    (fun u w hu hw x x0 x1 => by
      simp only [Prod.fst_add, Prod.snd_add, Prod.smul_fst, Prod.smul_snd, hold_lin]
      have y0 : 0 ≤ 1 - x := by linarith
      constructor
      · intro p
        have k1 := mul_le_mul_of_nonneg_left (hu.1 p).1 x0
        have k2 := mul_le_mul_of_nonneg_left (hu.1 p).2 x0
        have k3 := mul_le_mul_of_nonneg_left (hw.1 p).1 y0
        have k4 := mul_le_mul_of_nonneg_left (hw.1 p).2 y0
        constructor <;> linarith
      · intro p
        exact add_le_add (mul_le_mul_of_nonneg_left (hu.2 p) x0) (mul_le_mul_of_nonneg_left (hw.2 p) y0))
    dt (fun t u hu => by
      simp only [Prod.fst_add, Prod.snd_add, Prod.smul_fst, Prod.smul_snd, euler_next law a junk hr hs hκ]
      have i1 : ∀ p, A ≤ hold κ u.1 p ∧ hold κ u.1 p ≤ B := fun p => ⟨(hu.1 p).1, (hu.2 p).trans (hu.1 p).2⟩
      have i2 : ∀ p, A ≤ hold κ u.2 p ∧ hold κ u.2 p ≤ B := fun p => ⟨(hu.1 p).1.trans (hu.2 p), (hu.1 p).2⟩
      exact ⟨fun p => ⟨(next_within law a (volume_pos hr hκ) h0 hr hs hc hi hC t i1 p).1,
        (next_within law a (volume_pos hr hκ) h0 hr hs hc hi hC t i2 p).2⟩,
        next_mono law a (volume_pos hr hκ) h0 hr hs hC t (fun p => (hu.1 p).1) (fun p => (hu.1 p).2) hu.2⟩)
    t N ⟨t, (s.sol, w.sol), []⟩
    (by
      have x := Classical.arbitrary Pt
      refine ⟨fun p => ?_, fun p => ?_⟩
      · have h1 := (h p x).1
        have h2 := (h' p x).2
        rw [sol_hold hκ] at h1 h2
        exact ⟨h1, h2⟩
      · have := hle p x
        rwa [sol_hold hκ, sol_hold hκ] at this)
  rw [run_pair k _ t dt N s w _ rfl] at key
  intro p x
  rw [sol_hold hκ, sol_hold hκ]
  exact key.2 p

/-- **C131.** Two solutions with the same inflow do not move apart: the integral of their distance does not grow. -/
theorem contracts [Nonempty Pt] (ho : Outflow m law a c A B) (k : Stepper) (t : ℝ) (N : ℕ)
    (s w : Sys ℝ (Fin m.count → Coeff 1 0)) (h : Within m A B s.sol) (h' : Within m A B w.sol) :
    distance m (run k (m.rates law a junk c) t dt N s).sol (run k (m.rates law a junk c) t dt N w).sol ≤
      distance m s.sol w.sol := by
  have hV := volume_pos hr hκ
  have key := strong_stability k (fun t p => (m.rates law a junk c t p.1, m.rates law a junk c t p.2))
    (fun u => ((∀ p, A ≤ hold κ u.1 p ∧ hold κ u.1 p ≤ B) ∧ (∀ p, A ≤ hold κ u.2 p ∧ hold κ u.2 p ≤ B)) ∧
      ∑ p, volume m p * |hold κ u.1 p - hold κ u.2 p| ≤ distance m s.sol w.sol)
    (fun u w hu hw x x0 x1 => by
      simp only [Prod.fst_add, Prod.snd_add, Prod.smul_fst, Prod.smul_snd, hold_lin]
      have y0 : 0 ≤ 1 - x := by linarith
      have cv : ∀ {f g : Fin m.count → ℝ}, (∀ p, A ≤ f p ∧ f p ≤ B) → (∀ p, A ≤ g p ∧ g p ≤ B) →
          ∀ p, A ≤ x * f p + (1 - x) * g p ∧ x * f p + (1 - x) * g p ≤ B := by
        intro f g hf hg p
        have k1 := mul_le_mul_of_nonneg_left (hf p).1 x0
        have k2 := mul_le_mul_of_nonneg_left (hf p).2 x0
        have k3 := mul_le_mul_of_nonneg_left (hg p).1 y0
        have k4 := mul_le_mul_of_nonneg_left (hg p).2 y0
        constructor <;> linarith
      refine ⟨⟨cv hu.1.1 hw.1.1, cv hu.1.2 hw.1.2⟩, ?_⟩
      have j1 := mul_le_mul_of_nonneg_left hu.2 x0
      have j2 := mul_le_mul_of_nonneg_left hw.2 y0
      have j3 : ∑ p, volume m p * |x * hold κ u.1 p + (1 - x) * hold κ w.1 p -
          (x * hold κ u.2 p + (1 - x) * hold κ w.2 p)| ≤
          x * ∑ p, volume m p * |hold κ u.1 p - hold κ u.2 p| +
          (1 - x) * ∑ p, volume m p * |hold κ w.1 p - hold κ w.2 p| := by
        rw [Finset.mul_sum, Finset.mul_sum, ← Finset.sum_add_distrib]
        refine Finset.sum_le_sum fun p _ => ?_
        have e : x * hold κ u.1 p + (1 - x) * hold κ w.1 p - (x * hold κ u.2 p + (1 - x) * hold κ w.2 p) =
          x * (hold κ u.1 p - hold κ u.2 p) + (1 - x) * (hold κ w.1 p - hold κ w.2 p) := by ring
        rw [e]
        have e2 := abs_add_le (x * (hold κ u.1 p - hold κ u.2 p)) ((1 - x) * (hold κ w.1 p - hold κ w.2 p))
        rw [abs_mul, abs_mul, abs_of_nonneg x0, abs_of_nonneg y0] at e2
        have := mul_le_mul_of_nonneg_left e2 (hV p).le
        linarith
      linarith)
    dt (fun t u hu => by
      simp only [Prod.fst_add, Prod.snd_add, Prod.smul_fst, Prod.smul_snd, euler_next law a junk hr hs hκ]
      exact ⟨⟨next_within law a hV h0 hr hs hc hi hC t hu.1.1, next_within law a hV h0 hr hs hc hi hC t hu.1.2⟩,
        (next_distance law a hV h0 hr hs ho hC t hu.1.1 hu.1.2).trans hu.2⟩)
    t N ⟨t, (s.sol, w.sol), []⟩
    (by
      have x := Classical.arbitrary Pt
      refine ⟨⟨fun p => ?_, fun p => ?_⟩, ?_⟩
      · have := h p x
        rwa [sol_hold hκ] at this
      · have := h' p x
        rwa [sol_hold hκ] at this
      · rw [distance_hold hκ])
  rw [run_pair k _ t dt N s w _ rfl] at key
  rw [distance_hold hκ]
  exact key.2

end

/-! ### The hypotheses are met: the intervals from 0 to 1 and from 1 to 3 -/

/-- The function one over the root of the length, with the midpoint rule. -/
noncomputable def cellBasis (middle length : ℝ) : Basis ℝ 0 :=
  ⟨⟨fun _ _ => 1 / √length⟩, fun _ _ => 1, [(middle, length)]⟩

noncomputable def unequal : Mesh ℝ 0 where
  count := 2
  basis p := cellBasis (1 / 2 + 3 / 2 * p.val) (1 + p.val)
  gradValue _ _ _ _ := 0
  nodes _ _ := 0
  inter _ := false
  faces := [(0, 1, [⟨1, 1, east⟩])]
  boundary name :=
    if name = "in" then some [(0, [⟨0, 1, fun k => -east k⟩])]
    else if name = "out" then some [(1, [⟨3, 1, east⟩])] else none

/-- The functions. -/
noncomputable def height (p : Fin unequal.count) : ℝ := 1 / √(1 + p.val)

theorem unequal_constant : Constant unequal height := by
  intro p x i
  have : basisValues (unequal.basis p) x i = fullEval (cellBasis (1 / 2 + 3 / 2 * p.val) (1 + p.val)).linear
    ((cellBasis (1 / 2 + 3 / 2 * p.val) (1 + p.val)).taylor x) i := rfl
  rw [this]
  simp [fullEval, cellBasis, height]

theorem unequal_volume (p : Fin unequal.count) : volume unequal p = 1 + p.val := by
  show integrate _ [(_, _)] = _
  simp [integrate_eq]

theorem unequal_regular (g : ℝ → ℝ) : Regular unequal (inOut g) := by
  refine ⟨?_, ?_, ?_, ?_, ?_⟩
  · intro p i j
    obtain rfl : i = j := Subsingleton.elim (α := Fin 1) i j
    simp only [unequal_constant p, if_true]
    rw [integrate_const]
    have := unequal_volume p
    simp only [volume] at this
    rw [this, height]
    have h : √(1 + (p.val : ℝ)) * √(1 + (p.val : ℝ)) = 1 + p.val := Real.mul_self_sqrt (by positivity)
    have h0 : √(1 + (p.val : ℝ)) ≠ 0 := by positivity
    field_simp
    rw [pow_two, h]
  · intro _ p v x k
    rfl
  · intro f hf q hq
    obtain rfl := List.eq_of_mem_singleton hf
    obtain rfl := List.eq_of_mem_singleton hq
    norm_num
  · intro name faces h f hf q hq
    simp only [unequal] at h
    split_ifs at h
    all_goals
      obtain rfl := Option.some.inj h
      obtain rfl := List.eq_of_mem_singleton hf
      obtain rfl := List.eq_of_mem_singleton hq
      norm_num
  · intro name h
    have h' : name = "in" ∨ name = "out" := by simpa [names, inOut] using h
    rcases h' with rfl | rfl <;> simp [unequal]

theorem unequal_closed (g : ℝ → ℝ) : Closed unequal (inOut g) := by
  intro p k
  match p with
  | ⟨0, _⟩ => simp [surface, unequal, names, inOut, rim, face]
  | ⟨1, _⟩ => simp [surface, unequal, names, inOut, rim, face]

theorem unequal_courant (law : Law) (g : ℝ → ℝ) : Courant unequal law east (inOut g) 0 1 (1 / 2) := by
  have hf : fastest law 0 1 = 1 := by cases law <;> simp [fastest]
  intro p
  rw [hf, unequal_volume]
  have e : around unequal (inOut g) p (fun q => |along east q|) = 2 := by
    match p with
    | ⟨0, _⟩ =>
      simp [around, unequal, names, inOut, rim, face]
      norm_num [along, east]
    | ⟨1, _⟩ =>
      simp [around, unequal, names, inOut, rim, face]
      norm_num [along, east]
  rw [e]
  have : (0 : ℝ) ≤ p.val := Nat.cast_nonneg _
  linarith

example (g : ℝ → ℝ) (hg : ∀ t, 0 ≤ g t ∧ g t ≤ 1) (k : Stepper) (t : ℝ) (N : ℕ) (s : Sys ℝ (Fin 2 → Coeff 1 0))
    (h : Within unequal 0 1 s.sol) :
    Within unequal 0 1 (run k (unequal.rates .burgers east junk (inOut g)) t (1 / 2) N s).sol := by
  refine bounds .burgers east junk (unequal_regular g) ⟨rfl, rfl, rfl⟩ unequal_constant (unequal_closed g) ?_
    (by norm_num) (unequal_courant .burgers g) k t N s h
  refine ⟨?_, ?_, ?_⟩
  · intro name h
    simp [inOut] at h
  · intro nf h faces hb f hf q hq v h0 h1
    obtain rfl := List.eq_of_mem_singleton h
    have hb' : faces = [((0 : Fin 2), [⟨0, 1, fun k => -east k⟩])] := by
      simp only [unequal] at hb
      exact (Option.some.inj hb).symm
    subst hb'
    obtain rfl := List.eq_of_mem_singleton hf
    obtain rfl := List.eq_of_mem_singleton hq
    have : along east (⟨0, 1, fun k => -east k⟩ : Point ℝ) = -1 := by simp [along, east]
    rw [this]
    simp only [speed]
    linarith
  · intro nf h x t
    obtain rfl := List.eq_of_mem_singleton h
    exact hg t

end MiniCFD.Volumes
