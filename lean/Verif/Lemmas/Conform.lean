import Verif.Lemmas.ShapeHex
import Mathlib.LinearAlgebra.CrossProduct

/-! # Restricting a cell to one of its sides: the general part -/

namespace MiniCFD.Conform

open MiniCFD.Shape

variable {n m n' m' : Nat}

/-- On the side `on`, the functions of the cell `e` are those of the surface element `F` at `ψ p`, where node
`j` of the surface is node `ρ j` of the cell, and the others vanish; the same for the derivatives along the
two tangents `T`, where `D` is the derivative of `ψ` along them. -/
structure Matching (e : Element ℝ 3 n) (F : Element ℝ 2 m) (ρ : Fin m → Fin n) (on : Point ℝ 3 → Prop)
    (ψ : Point ℝ 3 → Point ℝ 2) (T : Fin 2 → Point ℝ 3) (D : Point ℝ 3 → Fin 2 → Fin 2 → ℝ) : Prop where
  shapes : ∀ p, on p → ∀ i, e.shapes p i = ∑ j, if ρ j = i then F.shapes (ψ p) j else 0
  grads : ∀ p, on p → ∀ a i, ∑ r, T a r * e.grads p i r
    = ∑ j, if ρ j = i then ∑ s, D p a s * F.grads (ψ p) j s else 0

variable {e : Element ℝ 3 n} {F : Element ℝ 2 m} {ρ : Fin m → Fin n} {on : Point ℝ 3 → Prop}
  {ψ : Point ℝ 3 → Point ℝ 2} {T : Fin 2 → Point ℝ 3} {D : Point ℝ 3 → Fin 2 → Fin 2 → ℝ}

theorem Matching.congr {e' : Element ℝ 3 n} {F' : Element ℝ 2 m} (h : Matching e F ρ on ψ T D)
    (he : ∀ p i, e'.shapes p i = e.shapes p i) (heg : ∀ p i r, e'.grads p i r = e.grads p i r)
    (hF : ∀ p i, F'.shapes p i = F.shapes p i) (hFg : ∀ p i r, F'.grads p i r = F.grads p i r) :
    Matching e' F' ρ on ψ T D where
  shapes p hp i := by simp only [he, hF]; exact h.shapes p hp i
  grads p hp a i := by simp only [heg, hFg]; exact h.grads p hp a i

/-- The numbering of the nodes of an enriched surface. -/
def extend (ρ : Fin m → Fin n) (ρ₂ : Fin m' → Fin n') : Fin (m + m') → Fin (n + n') :=
  Fin.append (fun j => Fin.castAdd n' (ρ j)) (fun j => Fin.natAdd n (ρ₂ j))

theorem sum_pick {ι κ : Type*} [Fintype ι] [Fintype κ] [DecidableEq κ] (ρ : ι → κ) (f : κ → ℝ) (g : ι → ℝ) :
    ∑ b, f b * (∑ j, if ρ j = b then g j else 0) = ∑ j, f (ρ j) * g j := by
  simp only [Finset.mul_sum]
  rw [Finset.sum_comm]
  refine Finset.sum_congr rfl fun j _ => ?_
  simp

theorem castAdd_ne_natAdd (a : Fin n) (b : Fin n') : Fin.castAdd n' a ≠ Fin.natAdd n b := by
  intro h
  have := congrArg Fin.val h
  simp at this
  omega

theorem ite_castAdd (a b : Fin n) (x : ℝ) :
    (if Fin.castAdd n' a = Fin.castAdd n' b then x else 0) = if a = b then x else 0 := by
  simp only [Fin.castAdd_inj]

theorem ite_natAdd (a b : Fin n') (x : ℝ) :
    (if Fin.natAdd n a = Fin.natAdd n b then x else 0) = if a = b then x else 0 := by
  simp only [Fin.natAdd_inj]

theorem reduce_apply {K : Type*} [Field K] {d : Nat} (w : Fin m → Fin n → K) (new : Fin m → Point K d)
    (old : Fin n → Point K d) (a : Fin n) (r : Fin d) :
    reduce w new old a r = old a r - ∑ b, w b a * new b r := by
  rw [reduce_eq]
  simp

theorem Matching.enrich (h : Matching e F ρ on ψ T D) {nodes : Fin n' → Point ℚ 3}
    {new : Point ℝ 3 → Fin n' → ℝ} {newGrads : Point ℝ 3 → Fin n' → Point ℝ 3} {fnodes : Fin m' → Point ℚ 2}
    {fnew : Point ℝ 2 → Fin m' → ℝ} {fnewGrads : Point ℝ 2 → Fin m' → Point ℝ 2} (ρ₂ : Fin m' → Fin n')
    (hnode : ∀ j, on (embed (nodes (ρ₂ j))) ∧ ψ (embed (nodes (ρ₂ j))) = embed (fnodes j))
    (hnew : ∀ p, on p → ∀ b, new p b = ∑ j, if ρ₂ j = b then fnew (ψ p) j else 0)
    (hgrad : ∀ p, on p → ∀ a b, ∑ r, T a r * newGrads p b r
      = ∑ j, if ρ₂ j = b then ∑ s, D p a s * fnewGrads (ψ p) j s else 0) :
    Matching (Shape.enrich e nodes new newGrads) (Shape.enrich F fnodes fnew fnewGrads) (extend ρ ρ₂) on ψ T D where
  shapes p hp i := by
    rw [Fin.sum_univ_add]
    refine Fin.addCases (fun a => ?_) (fun b => ?_) i
    · simp only [Shape.enrich, extend, Fin.append_left, Fin.append_right, ite_castAdd, reduce_eq]
      rw [Finset.sum_eq_zero (s := (Finset.univ : Finset (Fin m')))
        (fun j _ => if_neg (castAdd_ne_natAdd a (ρ₂ j)).symm), add_zero]
      simp only [smul_eq_mul, hnew p hp]
      rw [sum_pick ρ₂ (fun b => e.shapes (embed (nodes b)) a), h.shapes p hp]
      have : ∀ j, e.shapes (embed (nodes (ρ₂ j))) a
          = ∑ i, if ρ i = a then F.shapes (embed (fnodes j)) i else 0 := by
        intro j
        rw [h.shapes _ (hnode j).1, (hnode j).2]
      simp only [this, Finset.sum_mul]
      rw [Finset.sum_comm, ← Finset.sum_sub_distrib]
      refine Finset.sum_congr rfl fun i _ => ?_
      by_cases hi : ρ i = a <;> simp [hi]
    · simp only [Shape.enrich, extend, Fin.append_left, Fin.append_right, ite_natAdd]
      rw [Finset.sum_eq_zero (s := (Finset.univ : Finset (Fin m)))
        (fun j _ => if_neg (castAdd_ne_natAdd (ρ j) b)), zero_add]
      exact hnew p hp b
  grads p hp t i := by
    rw [Fin.sum_univ_add]
    refine Fin.addCases (fun a => ?_) (fun b => ?_) i
    · simp only [Shape.enrich, extend, Fin.append_left, Fin.append_right, ite_castAdd, reduce_apply]
      rw [Finset.sum_eq_zero (s := (Finset.univ : Finset (Fin m')))
        (fun j _ => if_neg (castAdd_ne_natAdd a (ρ₂ j)).symm), add_zero]
      have h1 : ∑ r, T t r * (e.grads p a r - ∑ b, e.shapes (embed (nodes b)) a * newGrads p b r)
          = ∑ r, T t r * e.grads p a r
            - ∑ b, e.shapes (embed (nodes b)) a * ∑ r, T t r * newGrads p b r := by
        simp only [mul_sub, Finset.sum_sub_distrib, Finset.mul_sum]
        rw [Finset.sum_comm]
        congr 1
        refine Finset.sum_congr rfl fun b _ => Finset.sum_congr rfl fun r _ => by ring
      rw [h1, h.grads p hp]
      simp only [hgrad p hp]
      rw [sum_pick ρ₂ (fun b => e.shapes (embed (nodes b)) a)]
      have : ∀ j, e.shapes (embed (nodes (ρ₂ j))) a
          = ∑ i, if ρ i = a then F.shapes (embed (fnodes j)) i else 0 := by
        intro j
        rw [h.shapes _ (hnode j).1, (hnode j).2]
      simp only [this, Finset.sum_mul]
      rw [Finset.sum_comm, ← Finset.sum_sub_distrib]
      refine Finset.sum_congr rfl fun i _ => ?_
      by_cases hi : ρ i = a
      · simp only [hi, if_true, mul_sub, Finset.sum_sub_distrib, Finset.mul_sum]
        congr 1
        rw [Finset.sum_comm]
        refine Finset.sum_congr rfl fun b _ => Finset.sum_congr rfl fun r _ => by ring
      · simp [hi]
    · simp only [Shape.enrich, extend, Fin.append_left, Fin.append_right, ite_natAdd]
      rw [Finset.sum_eq_zero (s := (Finset.univ : Finset (Fin m)))
        (fun j _ => if_neg (castAdd_ne_natAdd (ρ j) b)), zero_add]
      exact hgrad p hp t b

/-- New nodes which are not on the side. -/
theorem Matching.enrich_inner (h : Matching e F ρ on ψ T D) {nodes : Fin n' → Point ℚ 3}
    {new : Point ℝ 3 → Fin n' → ℝ} {newGrads : Point ℝ 3 → Fin n' → Point ℝ 3}
    (hnew : ∀ p, on p → ∀ b, new p b = 0)
    (hgrad : ∀ p, on p → ∀ a b, ∑ r, T a r * newGrads p b r = 0) :
    Matching (Shape.enrich e nodes new newGrads) F (fun j => Fin.castAdd n' (ρ j)) on ψ T D where
  shapes p hp i := by
    refine Fin.addCases (fun a => ?_) (fun b => ?_) i
    · simp only [Shape.enrich, Fin.append_left, ite_castAdd, reduce_eq, hnew p hp, smul_zero,
        Finset.sum_const_zero, sub_zero]
      exact h.shapes p hp a
    · simp only [Shape.enrich, Fin.append_right]
      rw [Finset.sum_eq_zero (fun j _ => if_neg (castAdd_ne_natAdd (ρ j) b))]
      exact hnew p hp b
  grads p hp t i := by
    refine Fin.addCases (fun a => ?_) (fun b => ?_) i
    · simp only [Shape.enrich, Fin.append_left, ite_castAdd, reduce_apply]
      have h1 : ∑ r, T t r * (e.grads p a r - ∑ b, e.shapes (embed (nodes b)) a * newGrads p b r)
          = ∑ r, T t r * e.grads p a r
            - ∑ b, e.shapes (embed (nodes b)) a * ∑ r, T t r * newGrads p b r := by
        simp only [mul_sub, Finset.sum_sub_distrib, Finset.mul_sum]
        rw [Finset.sum_comm]
        congr 1
        refine Finset.sum_congr rfl fun b _ => Finset.sum_congr rfl fun r _ => by ring
      rw [h1, h.grads p hp]
      simp only [hgrad p hp, mul_zero, Finset.sum_const_zero, sub_zero]
    · simp only [Shape.enrich, Fin.append_right]
      rw [Finset.sum_eq_zero (fun j _ => if_neg (castAdd_ne_natAdd (ρ j) b))]
      exact hgrad p hp t b

/-- The surface built on the nodes of the side traces the side. -/
theorem Matching.trace (h : Matching e F ρ on ψ T D) {d : Nat} (x : Fin n → Point ℝ d) {p : Point ℝ 3}
    (hp : on p) : localToGlobal e x p = localToGlobal F (fun j => x (ρ j)) (ψ p) := by
  funext c
  simp only [localToGlobal, h.shapes p hp]
  rw [sum_pick ρ (fun i => x i c)]

/-- The derivatives of the cell along the side. -/
theorem Matching.tangent (h : Matching e F ρ on ψ T D) {d : Nat} (x : Fin n → Point ℝ d) {p : Point ℝ 3}
    (hp : on p) (a : Fin 2) : ∑ r, T a r • jacobian e x p r
      = ∑ s, D p a s • jacobian F (fun j => x (ρ j)) (ψ p) s := by
  funext c
  simp only [Finset.sum_apply, Pi.smul_apply, smul_eq_mul, jacobian]
  have h1 : ∑ r, T a r * ∑ i, e.grads p i r * x i c = ∑ i, x i c * ∑ r, T a r * e.grads p i r := by
    simp only [Finset.mul_sum]
    rw [Finset.sum_comm]
    refine Finset.sum_congr rfl fun i _ => Finset.sum_congr rfl fun r _ => by ring
  have h2 : ∑ s, D p a s * ∑ j, F.grads (ψ p) j s * x (ρ j) c
      = ∑ j, x (ρ j) c * ∑ s, D p a s * F.grads (ψ p) j s := by
    simp only [Finset.mul_sum]
    rw [Finset.sum_comm]
    refine Finset.sum_congr rfl fun i _ => Finset.sum_congr rfl fun r _ => by ring
  rw [h1, h2]
  simp only [h.grads p hp]
  rw [sum_pick ρ (fun i => x i c)]

/-- The determinant of two tangents and a direction. -/
def det3 (u v d : Point ℝ 3) : ℝ :=
  u 0 * (v 1 * d 2 - v 2 * d 1) - u 1 * (v 0 * d 2 - v 2 * d 0) + u 2 * (v 0 * d 1 - v 1 * d 0)

/-- The determinant of the derivative of `ψ`. -/
def det2 (D : Fin 2 → Fin 2 → ℝ) : ℝ := D 0 0 * D 1 1 - D 0 1 * D 1 0

/-- The normal of the surface against a direction in the cell. -/
theorem Matching.normal (h : Matching e F ρ on ψ T D) (x : Fin n → Point ℝ 3) {p : Point ℝ 3}
    (hp : on p) (d : Point ℝ 3) :
    det2 (D p) * (crossProduct (jacobian F (fun j => x (ρ j)) (ψ p) 0) (jacobian F (fun j => x (ρ j)) (ψ p) 1)
      ⬝ᵥ ∑ r, d r • jacobian e x p r) = det3 (T 0) (T 1) d * (Matrix.of (jacobian e x p)).det := by
  have h0 := h.tangent x hp 0
  have h1 := h.tangent x hp 1
  generalize jacobian F (fun j => x (ρ j)) (ψ p) = f at *
  generalize jacobian e x p = j at *
  simp only [Fin.sum_univ_two, Fin.sum_univ_three] at h0 h1
  have a0 := congrFun h0 0
  have a1 := congrFun h0 1
  have a2 := congrFun h0 2
  have b0 := congrFun h1 0
  have b1 := congrFun h1 1
  have b2 := congrFun h1 2
  simp only [Pi.add_apply, Pi.smul_apply, smul_eq_mul] at a0 a1 a2 b0 b1 b2
  simp only [det2, det3, Matrix.det_fin_three, Matrix.of_apply, cross_apply, dotProduct, Fin.sum_univ_three,
    Pi.add_apply, Pi.smul_apply, smul_eq_mul, Matrix.cons_val, Fin.isValue]
  set w0 := d 0 * j 0 0 + d 1 * j 1 0 + d 2 * j 2 0 with hw0
  set w1 := d 0 * j 0 1 + d 1 * j 1 1 + d 2 * j 2 1 with hw1
  set w2 := d 0 * j 0 2 + d 1 * j 1 2 + d 2 * j 2 2 with hw2
  have key : (D p 0 0 * D p 1 1 - D p 0 1 * D p 1 0) * ((f 0 1 * f 1 2 - f 0 2 * f 1 1) * w0
      + (f 0 2 * f 1 0 - f 0 0 * f 1 2) * w1 + (f 0 0 * f 1 1 - f 0 1 * f 1 0) * w2)
    = ((D p 0 0 * f 0 1 + D p 0 1 * f 1 1) * (D p 1 0 * f 0 2 + D p 1 1 * f 1 2)
        - (D p 0 0 * f 0 2 + D p 0 1 * f 1 2) * (D p 1 0 * f 0 1 + D p 1 1 * f 1 1)) * w0
      + ((D p 0 0 * f 0 2 + D p 0 1 * f 1 2) * (D p 1 0 * f 0 0 + D p 1 1 * f 1 0)
        - (D p 0 0 * f 0 0 + D p 0 1 * f 1 0) * (D p 1 0 * f 0 2 + D p 1 1 * f 1 2)) * w1
      + ((D p 0 0 * f 0 0 + D p 0 1 * f 1 0) * (D p 1 0 * f 0 1 + D p 1 1 * f 1 1)
        - (D p 0 0 * f 0 1 + D p 0 1 * f 1 1) * (D p 1 0 * f 0 0 + D p 1 1 * f 1 0)) * w2 := by
    ring
  rw [key, ← a0, ← a1, ← a2, ← b0, ← b1, ← b2, hw0, hw1, hw2]
  ring

/-- A side of a cell: where it is, its coordinates, two tangents, and the derivatives of the coordinates
along them. -/
structure Side where
  on : Point ℝ 3 → Prop
  ψ : Point ℝ 3 → Point ℝ 2
  T : Fin 2 → Point ℝ 3
  D : Point ℝ 3 → Fin 2 → Fin 2 → ℝ

abbrev Side.Matches (s : Side) (e : Element ℝ 3 n) (F : Element ℝ 2 m) (ρ : Fin m → Fin n) : Prop :=
  Matching e F ρ s.on s.ψ s.T s.D

/-- The identity. -/
def unit : Point ℝ 3 → Fin 2 → Fin 2 → ℝ := fun _ => ![![1, 0], ![0, 1]]

/-- Expands both sides on one side of a cell. -/
syntax "expand" "[" Lean.Parser.Tactic.simpLemma,* "]" : tactic

macro_rules
  | `(tactic| expand [$ls,*]) => `(tactic|
      (simp only [Fin.zero_eta, Fin.mk_one, Fin.reduceFinMk, Fin.isValue, Fin.sum_univ_two, Fin.sum_univ_three,
        Fin.sum_univ_four, Matrix.cons_val, Fin.reduceEq, reduceIte, one_ne_zero, zero_ne_one, embed, Rat.cast_neg,
        Rat.cast_one, Rat.cast_zero, unit, $ls,*]))

/-- Reads the equation of a numbered side. -/
syntax "side" ident "[" Lean.Parser.Tactic.simpLemma,* "]" : tactic

macro_rules
  | `(tactic| side $h:ident [$ls,*]) => `(tactic|
      (simp only [Fin.zero_eta, Fin.mk_one, Fin.reduceFinMk, Fin.isValue, Matrix.cons_val, $ls,*] at $h:ident))

end MiniCFD.Conform
