import Verif.Model.Shape
import Verif.Spec.Shape
import Mathlib.Analysis.Calculus.Deriv.Add
import Mathlib.Analysis.Calculus.Deriv.Mul
import Mathlib.Analysis.Calculus.Deriv.Pow
import Mathlib.Algebra.BigOperators.Field
import Mathlib.Data.Rat.Cast.CharZero
import Mathlib.Tactic.FinCases
import Mathlib.Tactic.Ring
import Mathlib.Tactic.LinearCombination
import Mathlib.Tactic.FieldSimp
import Mathlib.Tactic.NormNum

/-! # Facts common to all elements -/

namespace MiniCFD.Shape

open MiniCFD.Spec.Shape

variable {d n m D : Nat}

/-- The nodes as real points. -/
noncomputable def real (nodes : Fin n → Point ℚ d) : Fin n → Point ℝ d := fun i => embed (nodes i)

theorem reduce_eq {K V : Type*} [Field K] [AddCommGroup V] [Module K V] (w : Fin m → Fin n → K)
    (new : Fin m → V) (old : Fin n → V) (a : Fin n) :
    reduce w new old a = old a - ∑ b, w b a • new b := by
  have h : ∀ (l : List (Fin m)) (s : Fin n → V),
      l.foldl (fun s b a => s a - w b a • new b) s a = s a - (l.map fun b => w b a • new b).sum := by
    intro l
    induction l with
    | nil => intro s; simp
    | cons b l ih => intro s; rw [List.foldl_cons, ih, List.map_cons, List.sum_cons]; abel
  rw [reduce, h, ← List.ofFn_eq_map, List.sum_ofFn]

/-! ### Reproduction -/

theorem reproduces_enrich {e : Element ℝ d n} {nodes : Fin m → Point ℚ d}
    {new : Point ℝ d → Fin m → ℝ} {newGrads : Point ℝ d → Fin m → Point ℝ d}
    {f : Point ℝ d → ℝ} (h : Reproduces e.shapes (real e.nodes) f) :
    Reproduces (enrich e nodes new newGrads).shapes (real (enrich e nodes new newGrads).nodes) f := by
  intro p
  rw [Fin.sum_univ_add]
  simp only [enrich, real, Fin.append_left, Fin.append_right, reduce_eq, smul_eq_mul, sub_mul,
    Finset.sum_sub_distrib, Finset.sum_mul]
  have h1 : ∑ i, e.shapes p i * f (embed (e.nodes i)) = f p := h p
  have h2 : ∀ b, ∑ i, e.shapes (embed (nodes b)) i * f (embed (e.nodes i)) = f (embed (nodes b)) :=
    fun b => h (embed (nodes b))
  rw [h1, Finset.sum_comm]
  have h3 : ∑ b, ∑ i, e.shapes (embed (nodes b)) i * new p b * f (embed (e.nodes i))
      = ∑ b, new p b * f (embed (nodes b)) := by
    refine Finset.sum_congr rfl fun b _ => ?_
    rw [← h2 b, Finset.mul_sum]
    exact Finset.sum_congr rfl fun i _ => by ring
  rw [h3]
  ring

/-- What the interpolation error of the old element becomes. -/
theorem reproduces_enrich' {e : Element ℝ d n} {nodes : Fin m → Point ℚ d}
    {new : Point ℝ d → Fin m → ℝ} {newGrads : Point ℝ d → Fin m → Point ℝ d}
    {f g : Point ℝ d → ℝ} (h : ∀ p, ∑ i, e.shapes p i * f (embed (e.nodes i)) = g p)
    (h' : ∀ p, g p + ∑ b, new p b * (f (embed (nodes b)) - g (embed (nodes b))) = f p) :
    Reproduces (enrich e nodes new newGrads).shapes (real (enrich e nodes new newGrads).nodes) f := by
  intro p
  rw [Fin.sum_univ_add, ← h' p]
  simp only [enrich, real, Fin.append_left, Fin.append_right, reduce_eq, smul_eq_mul, sub_mul,
    Finset.sum_sub_distrib, Finset.sum_mul, mul_sub]
  rw [h p, Finset.sum_comm]
  have h3 : ∑ b, ∑ i, e.shapes (embed (nodes b)) i * new p b * f (embed (e.nodes i))
      = ∑ b, new p b * g (embed (nodes b)) := by
    refine Finset.sum_congr rfl fun b _ => ?_
    rw [← h (embed (nodes b)), Finset.mul_sum]
    exact Finset.sum_congr rfl fun i _ => by ring
  rw [h3]
  ring

/-! ### Cardinality -/

theorem cardinal_enrich {e : Element ℝ d n} {nodes : Fin m → Point ℚ d}
    {new : Point ℝ d → Fin m → ℝ} {newGrads : Point ℝ d → Fin m → Point ℝ d}
    (h : Cardinal e.shapes (real e.nodes))
    (hOld : ∀ a b, new (embed (e.nodes a)) b = 0)
    (hNew : Cardinal new (real nodes)) :
    Cardinal (enrich e nodes new newGrads).shapes (real (enrich e nodes new newGrads).nodes) := by
  have hNew' : ∀ b b', new (embed (nodes b')) b = if b = b' then 1 else 0 := hNew
  have h0 : ∀ a a', e.shapes (embed (e.nodes a')) a = if a = a' then 1 else 0 := h
  intro i j
  refine Fin.addCases (fun a => ?_) (fun b => ?_) i <;>
    refine Fin.addCases (fun a' => ?_) (fun b' => ?_) j
  · simp only [enrich, real, Fin.append_left, reduce_eq, hOld, h0, smul_eq_mul, mul_zero,
      Finset.sum_const_zero, sub_zero, Fin.ext_iff, Fin.val_castAdd]
  · simp only [enrich, real, Fin.append_left, Fin.append_right, reduce_eq, hNew', smul_eq_mul,
      mul_ite, mul_one, mul_zero, Finset.sum_ite_eq', Finset.mem_univ, if_true, sub_self]
    rw [if_neg]
    intro hc
    have := congrArg Fin.val hc
    simp only [Fin.val_castAdd, Fin.val_natAdd] at this
    omega
  · simp only [enrich, real, Fin.append_left, Fin.append_right, hOld]
    rw [if_neg]
    intro hc
    have := congrArg Fin.val hc
    simp only [Fin.val_castAdd, Fin.val_natAdd] at this
    omega
  · simp only [enrich, real, Fin.append_right, hNew', Fin.ext_iff, Fin.val_natAdd,
      Nat.add_left_cancel_iff]

/-! ### Derivatives -/

/-- `v p` is the partial derivative of `f` at every `p`. -/
def Deriv (f : Point ℝ d → ℝ) (j : Fin d) (v : Point ℝ d → ℝ) : Prop := ∀ p, HasPartial f j (v p) p

/-- A point moved along one axis. -/
def shift {K : Type*} [Field K] (p : Point K d) (j : Fin d) (t : K) : Point K d :=
  fun k => if k = j then p k + t else p k

theorem update_eq_shift (p : Point ℝ d) (j : Fin d) (s : ℝ) :
    Function.update p j s = shift p j (s - p j) := by
  funext k
  by_cases h : k = j
  · subst h; simp [shift]
  · simp [shift, h]

/-- A function that is at most quadratic along an axis. -/
theorem deriv_of_expansion {f v : Point ℝ d → ℝ} {j : Fin d} (w : Point ℝ d → ℝ)
    (h : ∀ p t, f (shift p j t) = f p + t * v p + t ^ 2 * w p) : Deriv f j v := by
  intro p
  have e : (fun s => f (Function.update p j s))
      = fun s => f p + (s - p j) * v p + (s - p j) ^ 2 * w p := by
    funext s; rw [update_eq_shift, h]
  unfold HasPartial
  rw [e]
  have h1 : HasDerivAt (fun s : ℝ => s - p j) 1 (p j) := (hasDerivAt_id _).sub_const _
  have h2 := ((h1.mul_const (v p)).const_add (f p)).add ((h1.fun_pow 2).mul_const (w p))
  refine h2.congr_deriv ?_
  simp

/-- The usual choice of the quadratic coefficient. -/
noncomputable def bend (f : Point ℝ d → ℝ) (j : Fin d) (p : Point ℝ d) : ℝ :=
  (f (shift p j 1) + f (shift p j (-1)) - 2 * f p) / 2

theorem deriv_of_bend {f v : Point ℝ d → ℝ} {j : Fin d}
    (h : ∀ p t, f (shift p j t) = f p + t * v p + t ^ 2 * bend f j p) : Deriv f j v :=
  deriv_of_expansion _ h

theorem deriv_reduce {k : Nat} {w : Fin m → Fin n → ℝ} {f : Point ℝ d → Fin n → ℝ}
    {g : Point ℝ d → Fin m → ℝ} {j : Fin d} {vf : Point ℝ d → Fin n → Fin k → ℝ}
    {vg : Point ℝ d → Fin m → Fin k → ℝ} {r : Fin k}
    (hf : ∀ i, Deriv (fun p => f p i) j (fun p => vf p i r))
    (hg : ∀ b, Deriv (fun p => g p b) j (fun p => vg p b r)) (a : Fin n) :
    Deriv (fun p => reduce w (g p) (f p) a) j (fun p => reduce w (vg p) (vf p) a r) := by
  intro p
  simp only [reduce_eq, HasPartial, smul_eq_mul, Pi.sub_apply, Finset.sum_apply, Pi.smul_apply]
  exact (hf a p).sub (HasDerivAt.fun_sum fun b _ => (hg b p).const_mul (w b a))

theorem deriv_append {k : Nat} {f : Point ℝ d → Fin n → ℝ} {g : Point ℝ d → Fin m → ℝ} {j : Fin d}
    {vf : Point ℝ d → Fin n → Fin k → ℝ} {vg : Point ℝ d → Fin m → Fin k → ℝ} {r : Fin k}
    (hf : ∀ i, Deriv (fun p => f p i) j (fun p => vf p i r))
    (hg : ∀ b, Deriv (fun p => g p b) j (fun p => vg p b r)) (i : Fin (n + m)) :
    Deriv (fun p => Fin.append (f p) (g p) i) j (fun p => Fin.append (vf p) (vg p) i r) := by
  refine Fin.addCases (fun a => ?_) (fun b => ?_) i
  · simpa only [Fin.append_left] using hf a
  · simpa only [Fin.append_right] using hg b

theorem deriv_enrich {e : Element ℝ d n} {nodes : Fin m → Point ℚ d}
    {new : Point ℝ d → Fin m → ℝ} {newGrads : Point ℝ d → Fin m → Point ℝ d}
    (h : ∀ i j, Deriv (fun p => e.shapes p i) j (fun p => e.grads p i j))
    (h' : ∀ b j, Deriv (fun p => new p b) j (fun p => newGrads p b j)) (i j) :
    Deriv (fun p => (enrich e nodes new newGrads).shapes p i) j
      (fun p => (enrich e nodes new newGrads).grads p i j) :=
  deriv_append (k := d) (r := j) (fun a => deriv_reduce (k := d) (r := j) (fun a => h a j)
    (fun b => h' b j) a) (fun b => h' b j) i

/-! ### Everything at once -/

/-- The properties of an element whose straight version is the image of `φ`. -/
structure Sound (e : Element ℝ d n) (φ : Point ℝ d → Point ℝ d) : Prop where
  cardinal : Cardinal e.shapes (real e.nodes)
  unity : ∀ p, ∑ i, e.shapes p i = 1
  linear : ∀ j, Reproduces e.shapes (real e.nodes) (fun p => φ p j)
  grads : ∀ i j, Deriv (fun p => e.shapes p i) j (fun p => e.grads p i j)

theorem Sound.enrich {e : Element ℝ d n} {φ : Point ℝ d → Point ℝ d} (s : Sound e φ)
    {nodes : Fin m → Point ℚ d} {new : Point ℝ d → Fin m → ℝ}
    {newGrads : Point ℝ d → Fin m → Point ℝ d}
    (hOld : ∀ a b, new (embed (e.nodes a)) b = 0) (hNew : Cardinal new (real nodes))
    (h' : ∀ b j, Deriv (fun p => new p b) j (fun p => newGrads p b j)) :
    Sound (enrich e nodes new newGrads) φ where
  cardinal := cardinal_enrich s.cardinal hOld hNew
  unity p := by
    have h1 : Reproduces e.shapes (real e.nodes) (fun _ => 1) := by
      intro p; simpa using s.unity p
    have := reproduces_enrich (nodes := nodes) (new := new) (newGrads := newGrads) h1 p
    simpa using this
  linear j := reproduces_enrich (s.linear j)
  grads := deriv_enrich s.grads h'

/-! ### Casting -/

theorem cardinal_of_rat {N : Point ℝ d → Fin n → ℝ} {M : Point ℚ d → Fin n → ℚ}
    {nodes : Fin n → Point ℚ d} (hc : ∀ q i, N (embed q) i = ((M q i : ℚ) : ℝ))
    (h : ∀ i j, M (nodes j) i = if i = j then 1 else 0) : Cardinal N (real nodes) := by
  intro i j
  rw [real, hc, h]
  split_ifs <;> simp

theorem zero_of_rat {N : Point ℝ d → Fin m → ℝ} {M : Point ℚ d → Fin m → ℚ}
    {nodes : Fin n → Point ℚ d} (hc : ∀ q i, N (embed q) i = ((M q i : ℚ) : ℝ))
    (h : ∀ a b, M (nodes a) b = 0) (a b) : N (embed (nodes a)) b = 0 := by
  rw [hc, h, Rat.cast_zero]

end MiniCFD.Shape
