import Verif.Model.ShapeHex
import Verif.Lemmas.Shape

/-! # Hexahedra -/

namespace MiniCFD.Shape

open MiniCFD.Spec.Shape

/-! ### Triquadratic functions -/

/-- A point with one coordinate replaced. -/
def put (p : Point ℝ 3) (j : Fin 3) (t : ℝ) : Point ℝ 3 := fun k => if k = j then t else p k

/-- A function that is at most quadratic along every axis. -/
def Quadratic (f : Point ℝ 3 → ℝ) : Prop :=
  ∀ p j t, f (put p j t) =
    (t - 1) * t / 2 * f (put p j (-1)) + (1 - t * t) * f (put p j 0) + (t + 1) * t / 2 * f (put p j 1)

theorem Quadratic.sub {f g : Point ℝ 3 → ℝ} (hf : Quadratic f) (hg : Quadratic g) :
    Quadratic (fun p => f p - g p) := by
  intro p j t
  simp only []
  rw [hf, hg]
  ring

theorem Quadratic.mul_left {f : Point ℝ 3 → ℝ} (hf : Quadratic f) (c : ℝ) :
    Quadratic (fun p => c * f p) := by
  intro p j t
  simp only []
  rw [hf]
  ring

theorem Quadratic.sum {n : Nat} {f : Fin n → Point ℝ 3 → ℝ} (hf : ∀ i, Quadratic (f i)) :
    Quadratic (fun p => ∑ i, f i p) := by
  intro p j t
  simp only [Finset.mul_sum, ← Finset.sum_add_distrib]
  exact Finset.sum_congr rfl fun i _ => hf i p j t

theorem Quadratic.reduce {n m : Nat} {w : Fin m → Fin n → ℝ} {f : Point ℝ 3 → Fin n → ℝ}
    {g : Point ℝ 3 → Fin m → ℝ} (hf : ∀ i, Quadratic (fun p => f p i))
    (hg : ∀ b, Quadratic (fun p => g p b)) (a : Fin n) :
    Quadratic (fun p => reduce w (g p) (f p) a) := by
  simp only [reduce_eq, smul_eq_mul]
  exact (hf a).sub (Quadratic.sum fun b => (hg b).mul_left _)

theorem Quadratic.enrich {n m : Nat} {e : Element ℝ 3 n} {nodes : Fin m → Point ℚ 3}
    {new : Point ℝ 3 → Fin m → ℝ} {newGrads : Point ℝ 3 → Fin m → Point ℝ 3}
    (hf : ∀ i, Quadratic (fun p => e.shapes p i)) (hg : ∀ b, Quadratic (fun p => new p b))
    (i : Fin (n + m)) : Quadratic (fun p => (enrich e nodes new newGrads).shapes p i) := by
  refine Fin.addCases (fun a => ?_) (fun b => ?_) i
  · simpa only [Shape.enrich, Fin.append_left] using Quadratic.reduce hf hg a
  · simpa only [Shape.enrich, Fin.append_right] using hg b

theorem sum_27 (f : Fin 27 → ℝ) :
    ∑ i, f i = f 0 + f 1 + f 2 + f 3 + f 4 + f 5 + f 6 + f 7 + f 8 + f 9 + f 10 + f 11 + f 12 + f 13
      + f 14 + f 15 + f 16 + f 17 + f 18 + f 19 + f 20 + f 21 + f 22 + f 23 + f 24 + f 25 + f 26 := by
  iterate 19 rw [Fin.sum_univ_castSucc]
  rw [Fin.sum_univ_eight]
  rfl

theorem put3 (p : Point ℝ 3) (x y z : ℝ) : put (put (put p 0 x) 1 y) 2 z = ![x, y, z] := by
  funext k
  fin_cases k <;> simp only [put, Fin.zero_eta, Fin.mk_one, Fin.reduceFinMk, Fin.isValue,
    Fin.reduceEq, reduceIte, Matrix.cons_val, one_ne_zero, zero_ne_one]

theorem embed3 (x y z : ℚ) : (embed ![x, y, z] : Point ℝ 3) = ![(x : ℝ), (y : ℝ), (z : ℝ)] := by
  funext k
  fin_cases k <;> rfl

theorem Quadratic.expand {f : Point ℝ 3 → ℝ} (h : Quadratic f) (x y z : ℝ) :
    f ![x, y, z] =
      let a := (x - 1) * x / 2
      let b := 1 - x * x
      let c := (x + 1) * x / 2
      let a' := (y - 1) * y / 2
      let b' := 1 - y * y
      let c' := (y + 1) * y / 2
      let a'' := (z - 1) * z / 2
      let b'' := 1 - z * z
      let c'' := (z + 1) * z / 2
      a * (a' * (a'' * f ![-1, -1, -1] + b'' * f ![-1, -1, 0] + c'' * f ![-1, -1, 1])
        + b' * (a'' * f ![-1, 0, -1] + b'' * f ![-1, 0, 0] + c'' * f ![-1, 0, 1])
        + c' * (a'' * f ![-1, 1, -1] + b'' * f ![-1, 1, 0] + c'' * f ![-1, 1, 1]))
      + b * (a' * (a'' * f ![0, -1, -1] + b'' * f ![0, -1, 0] + c'' * f ![0, -1, 1])
        + b' * (a'' * f ![0, 0, -1] + b'' * f ![0, 0, 0] + c'' * f ![0, 0, 1])
        + c' * (a'' * f ![0, 1, -1] + b'' * f ![0, 1, 0] + c'' * f ![0, 1, 1]))
      + c * (a' * (a'' * f ![1, -1, -1] + b'' * f ![1, -1, 0] + c'' * f ![1, -1, 1])
        + b' * (a'' * f ![1, 0, -1] + b'' * f ![1, 0, 0] + c'' * f ![1, 0, 1])
        + c' * (a'' * f ![1, 1, -1] + b'' * f ![1, 1, 0] + c'' * f ![1, 1, 1])) := by
  have hz : ∀ x y z : ℝ, f ![x, y, z] = (z - 1) * z / 2 * f ![x, y, -1] + (1 - z * z) * f ![x, y, 0]
      + (z + 1) * z / 2 * f ![x, y, 1] := by
    intro x y z
    have := h (put (put 0 0 x) 1 y) 2 z
    simpa only [put3] using this
  have py : ∀ x y y' z : ℝ, put ![x, y, z] 1 y' = ![x, y', z] := by
    intro x y y' z
    funext k
    fin_cases k <;> simp only [put, Fin.zero_eta, Fin.mk_one, Fin.reduceFinMk, Fin.isValue,
      Fin.reduceEq, reduceIte, Matrix.cons_val, one_ne_zero, zero_ne_one]
  have px : ∀ x x' y z : ℝ, put ![x, y, z] 0 x' = ![x', y, z] := by
    intro x x' y z
    funext k
    fin_cases k <;> simp only [put, Fin.zero_eta, Fin.mk_one, Fin.reduceFinMk, Fin.isValue,
      Fin.reduceEq, reduceIte, Matrix.cons_val, one_ne_zero, zero_ne_one]
  have hy : ∀ x y z : ℝ, f ![x, y, z] = (y - 1) * y / 2 * f ![x, -1, z] + (1 - y * y) * f ![x, 0, z]
      + (y + 1) * y / 2 * f ![x, 1, z] := by
    intro x y z
    simpa only [py] using h ![x, 0, z] 1 y
  have hx : ∀ x y z : ℝ, f ![x, y, z] = (x - 1) * x / 2 * f ![-1, y, z] + (1 - x * x) * f ![0, y, z]
      + (x + 1) * x / 2 * f ![1, y, z] := by
    intro x y z
    simpa only [px] using h ![0, y, z] 0 x
  rw [hx x y z, hy (-1) y z, hy 0 y z, hy 1 y z, hz (-1) (-1) z, hz (-1) 0 z, hz (-1) 1 z,
    hz 0 (-1) z, hz 0 0 z, hz 0 1 z, hz 1 (-1) z, hz 1 0 z, hz 1 1 z]

theorem point3 (p : Point ℝ 3) : p = ![p 0, p 1, p 2] := by
  funext k
  fin_cases k <;> rfl

theorem hexFactor_neg (x : ℝ) : hexFactor (-1) x = (x - 1) * x / 2 := if_pos rfl

theorem hexFactor_zero (x : ℝ) : hexFactor 0 x = 1 - x * x := by
  rw [hexFactor, if_neg (by norm_num), if_pos rfl]

theorem hexFactor_one (x : ℝ) : hexFactor 1 x = (x + 1) * x / 2 := by
  rw [hexFactor, if_neg (by norm_num), if_neg (by norm_num)]

set_option maxRecDepth 4000 in
theorem Quadratic.reproduces {f : Point ℝ 3 → ℝ} (h : Quadratic f) :
    Reproduces (hexahedron27 ℝ).shapes (real (hexahedron27 ℝ).nodes) f := by
  intro p
  conv_rhs => rw [point3 p, h.expand]
  rw [sum_27]
  simp only [hexahedron27, real, hexNodes, Matrix.cons_val, embed3, hexFactor_neg, hexFactor_zero,
    hexFactor_one, Rat.cast_neg, Rat.cast_one, Rat.cast_zero]
  ring

/-! ### Derivatives of the ingredients -/

theorem quadratic_corner (c : Point ℝ 3) : Quadratic (fun p => cornerShape c p) := by
  intro p j t
  fin_cases j <;> simp only [cornerShape, put, Fin.zero_eta, Fin.mk_one,
    Fin.reduceFinMk, Fin.isValue, Fin.reduceEq, reduceIte, Matrix.cons_val, one_ne_zero,
    zero_ne_one] <;> ring

theorem deriv_corner (c : Point ℝ 3) (j : Fin 3) :
    Deriv (fun p => cornerShape c p) j (fun p => cornerGrad c p j) := by
  refine deriv_of_bend fun p t => ?_
  fin_cases j <;> simp only [bend, cornerShape, cornerGrad, shift, Fin.zero_eta, Fin.mk_one,
    Fin.reduceFinMk, Fin.isValue, Fin.reduceEq, reduceIte, Matrix.cons_val, one_ne_zero,
    zero_ne_one] <;> ring

theorem deriv_cornerGrad (c : Point ℝ 3) (j k : Fin 3) :
    Deriv (fun p => cornerGrad c p j) k (fun p => cornerHess c p (sym2 j k)) := by
  refine deriv_of_bend fun p t => ?_
  fin_cases j <;> fin_cases k <;> simp only [bend, cornerGrad, cornerHess, sym2, shift,
    Fin.zero_eta, Fin.mk_one,
    Fin.reduceFinMk, Fin.isValue, Fin.reduceEq, reduceIte, Matrix.cons_val, one_ne_zero,
    zero_ne_one] <;> ring

theorem deriv_cornerHess (c : Point ℝ 3) (j k l : Fin 3) :
    Deriv (fun p => cornerHess c p (sym2 j k)) l (fun p => cornerThird c p (sym3 j k l)) := by
  refine deriv_of_bend fun p t => ?_
  fin_cases j <;> fin_cases k <;> fin_cases l <;> simp only [bend, cornerHess, cornerThird, sym2, sym3,
    shift, Fin.zero_eta, Fin.mk_one,
    Fin.reduceFinMk, Fin.isValue, Fin.reduceEq, reduceIte, Matrix.cons_val, one_ne_zero,
    zero_ne_one] <;> ring

theorem quadratic_edgeX (c : Point ℝ 3) : Quadratic (fun p => edgeXShape c p) := by
  intro p j t
  fin_cases j <;> simp only [edgeXShape, put, Fin.zero_eta, Fin.mk_one,
    Fin.reduceFinMk, Fin.isValue, Fin.reduceEq, reduceIte, Matrix.cons_val, one_ne_zero,
    zero_ne_one] <;> ring

theorem deriv_edgeX (c : Point ℝ 3) (j : Fin 3) :
    Deriv (fun p => edgeXShape c p) j (fun p => edgeXGrad c p j) := by
  refine deriv_of_bend fun p t => ?_
  fin_cases j <;> simp only [bend, edgeXShape, edgeXGrad, shift, Fin.zero_eta, Fin.mk_one,
    Fin.reduceFinMk, Fin.isValue, Fin.reduceEq, reduceIte, Matrix.cons_val, one_ne_zero,
    zero_ne_one] <;> ring

theorem deriv_edgeXGrad (c : Point ℝ 3) (j k : Fin 3) :
    Deriv (fun p => edgeXGrad c p j) k (fun p => edgeXHess c p (sym2 j k)) := by
  refine deriv_of_bend fun p t => ?_
  fin_cases j <;> fin_cases k <;> simp only [bend, edgeXGrad, edgeXHess, sym2, shift,
    Fin.zero_eta, Fin.mk_one,
    Fin.reduceFinMk, Fin.isValue, Fin.reduceEq, reduceIte, Matrix.cons_val, one_ne_zero,
    zero_ne_one] <;> ring

theorem deriv_edgeXHess (c : Point ℝ 3) (j k l : Fin 3) :
    Deriv (fun p => edgeXHess c p (sym2 j k)) l (fun p => edgeXThird c p (sym3 j k l)) := by
  refine deriv_of_bend fun p t => ?_
  fin_cases j <;> fin_cases k <;> fin_cases l <;> simp only [bend, edgeXHess, edgeXThird, sym2, sym3,
    shift, Fin.zero_eta, Fin.mk_one,
    Fin.reduceFinMk, Fin.isValue, Fin.reduceEq, reduceIte, Matrix.cons_val, one_ne_zero,
    zero_ne_one] <;> ring

theorem quadratic_edgeY (c : Point ℝ 3) : Quadratic (fun p => edgeYShape c p) := by
  intro p j t
  fin_cases j <;> simp only [edgeYShape, put, Fin.zero_eta, Fin.mk_one,
    Fin.reduceFinMk, Fin.isValue, Fin.reduceEq, reduceIte, Matrix.cons_val, one_ne_zero,
    zero_ne_one] <;> ring

theorem deriv_edgeY (c : Point ℝ 3) (j : Fin 3) :
    Deriv (fun p => edgeYShape c p) j (fun p => edgeYGrad c p j) := by
  refine deriv_of_bend fun p t => ?_
  fin_cases j <;> simp only [bend, edgeYShape, edgeYGrad, shift, Fin.zero_eta, Fin.mk_one,
    Fin.reduceFinMk, Fin.isValue, Fin.reduceEq, reduceIte, Matrix.cons_val, one_ne_zero,
    zero_ne_one] <;> ring

theorem deriv_edgeYGrad (c : Point ℝ 3) (j k : Fin 3) :
    Deriv (fun p => edgeYGrad c p j) k (fun p => edgeYHess c p (sym2 j k)) := by
  refine deriv_of_bend fun p t => ?_
  fin_cases j <;> fin_cases k <;> simp only [bend, edgeYGrad, edgeYHess, sym2, shift,
    Fin.zero_eta, Fin.mk_one,
    Fin.reduceFinMk, Fin.isValue, Fin.reduceEq, reduceIte, Matrix.cons_val, one_ne_zero,
    zero_ne_one] <;> ring

theorem deriv_edgeYHess (c : Point ℝ 3) (j k l : Fin 3) :
    Deriv (fun p => edgeYHess c p (sym2 j k)) l (fun p => edgeYThird c p (sym3 j k l)) := by
  refine deriv_of_bend fun p t => ?_
  fin_cases j <;> fin_cases k <;> fin_cases l <;> simp only [bend, edgeYHess, edgeYThird, sym2, sym3,
    shift, Fin.zero_eta, Fin.mk_one,
    Fin.reduceFinMk, Fin.isValue, Fin.reduceEq, reduceIte, Matrix.cons_val, one_ne_zero,
    zero_ne_one] <;> ring

theorem quadratic_edgeZ (c : Point ℝ 3) : Quadratic (fun p => edgeZShape c p) := by
  intro p j t
  fin_cases j <;> simp only [edgeZShape, put, Fin.zero_eta, Fin.mk_one,
    Fin.reduceFinMk, Fin.isValue, Fin.reduceEq, reduceIte, Matrix.cons_val, one_ne_zero,
    zero_ne_one] <;> ring

theorem deriv_edgeZ (c : Point ℝ 3) (j : Fin 3) :
    Deriv (fun p => edgeZShape c p) j (fun p => edgeZGrad c p j) := by
  refine deriv_of_bend fun p t => ?_
  fin_cases j <;> simp only [bend, edgeZShape, edgeZGrad, shift, Fin.zero_eta, Fin.mk_one,
    Fin.reduceFinMk, Fin.isValue, Fin.reduceEq, reduceIte, Matrix.cons_val, one_ne_zero,
    zero_ne_one] <;> ring

theorem deriv_edgeZGrad (c : Point ℝ 3) (j k : Fin 3) :
    Deriv (fun p => edgeZGrad c p j) k (fun p => edgeZHess c p (sym2 j k)) := by
  refine deriv_of_bend fun p t => ?_
  fin_cases j <;> fin_cases k <;> simp only [bend, edgeZGrad, edgeZHess, sym2, shift,
    Fin.zero_eta, Fin.mk_one,
    Fin.reduceFinMk, Fin.isValue, Fin.reduceEq, reduceIte, Matrix.cons_val, one_ne_zero,
    zero_ne_one] <;> ring

theorem deriv_edgeZHess (c : Point ℝ 3) (j k l : Fin 3) :
    Deriv (fun p => edgeZHess c p (sym2 j k)) l (fun p => edgeZThird c p (sym3 j k l)) := by
  refine deriv_of_bend fun p t => ?_
  fin_cases j <;> fin_cases k <;> fin_cases l <;> simp only [bend, edgeZHess, edgeZThird, sym2, sym3,
    shift, Fin.zero_eta, Fin.mk_one,
    Fin.reduceFinMk, Fin.isValue, Fin.reduceEq, reduceIte, Matrix.cons_val, one_ne_zero,
    zero_ne_one] <;> ring

theorem quadratic_faceX (c : Point ℝ 3) : Quadratic (fun p => faceXShape c p) := by
  intro p j t
  fin_cases j <;> simp only [faceXShape, put, Fin.zero_eta, Fin.mk_one,
    Fin.reduceFinMk, Fin.isValue, Fin.reduceEq, reduceIte, Matrix.cons_val, one_ne_zero,
    zero_ne_one] <;> ring

theorem deriv_faceX (c : Point ℝ 3) (j : Fin 3) :
    Deriv (fun p => faceXShape c p) j (fun p => faceXGrad c p j) := by
  refine deriv_of_bend fun p t => ?_
  fin_cases j <;> simp only [bend, faceXShape, faceXGrad, shift, Fin.zero_eta, Fin.mk_one,
    Fin.reduceFinMk, Fin.isValue, Fin.reduceEq, reduceIte, Matrix.cons_val, one_ne_zero,
    zero_ne_one] <;> ring

theorem deriv_faceXGrad (c : Point ℝ 3) (j k : Fin 3) :
    Deriv (fun p => faceXGrad c p j) k (fun p => faceXHess c p (sym2 j k)) := by
  refine deriv_of_bend fun p t => ?_
  fin_cases j <;> fin_cases k <;> simp only [bend, faceXGrad, faceXHess, sym2, shift,
    Fin.zero_eta, Fin.mk_one,
    Fin.reduceFinMk, Fin.isValue, Fin.reduceEq, reduceIte, Matrix.cons_val, one_ne_zero,
    zero_ne_one] <;> ring

theorem deriv_faceXHess (c : Point ℝ 3) (j k l : Fin 3) :
    Deriv (fun p => faceXHess c p (sym2 j k)) l (fun p => faceXThird c p (sym3 j k l)) := by
  refine deriv_of_bend fun p t => ?_
  fin_cases j <;> fin_cases k <;> fin_cases l <;> simp only [bend, faceXHess, faceXThird, sym2, sym3,
    shift, Fin.zero_eta, Fin.mk_one,
    Fin.reduceFinMk, Fin.isValue, Fin.reduceEq, reduceIte, Matrix.cons_val, one_ne_zero,
    zero_ne_one] <;> ring

theorem quadratic_faceY (c : Point ℝ 3) : Quadratic (fun p => faceYShape c p) := by
  intro p j t
  fin_cases j <;> simp only [faceYShape, put, Fin.zero_eta, Fin.mk_one,
    Fin.reduceFinMk, Fin.isValue, Fin.reduceEq, reduceIte, Matrix.cons_val, one_ne_zero,
    zero_ne_one] <;> ring

theorem deriv_faceY (c : Point ℝ 3) (j : Fin 3) :
    Deriv (fun p => faceYShape c p) j (fun p => faceYGrad c p j) := by
  refine deriv_of_bend fun p t => ?_
  fin_cases j <;> simp only [bend, faceYShape, faceYGrad, shift, Fin.zero_eta, Fin.mk_one,
    Fin.reduceFinMk, Fin.isValue, Fin.reduceEq, reduceIte, Matrix.cons_val, one_ne_zero,
    zero_ne_one] <;> ring

theorem deriv_faceYGrad (c : Point ℝ 3) (j k : Fin 3) :
    Deriv (fun p => faceYGrad c p j) k (fun p => faceYHess c p (sym2 j k)) := by
  refine deriv_of_bend fun p t => ?_
  fin_cases j <;> fin_cases k <;> simp only [bend, faceYGrad, faceYHess, sym2, shift,
    Fin.zero_eta, Fin.mk_one,
    Fin.reduceFinMk, Fin.isValue, Fin.reduceEq, reduceIte, Matrix.cons_val, one_ne_zero,
    zero_ne_one] <;> ring

theorem deriv_faceYHess (c : Point ℝ 3) (j k l : Fin 3) :
    Deriv (fun p => faceYHess c p (sym2 j k)) l (fun p => faceYThird c p (sym3 j k l)) := by
  refine deriv_of_bend fun p t => ?_
  fin_cases j <;> fin_cases k <;> fin_cases l <;> simp only [bend, faceYHess, faceYThird, sym2, sym3,
    shift, Fin.zero_eta, Fin.mk_one,
    Fin.reduceFinMk, Fin.isValue, Fin.reduceEq, reduceIte, Matrix.cons_val, one_ne_zero,
    zero_ne_one] <;> ring

theorem quadratic_faceZ (c : Point ℝ 3) : Quadratic (fun p => faceZShape c p) := by
  intro p j t
  fin_cases j <;> simp only [faceZShape, put, Fin.zero_eta, Fin.mk_one,
    Fin.reduceFinMk, Fin.isValue, Fin.reduceEq, reduceIte, Matrix.cons_val, one_ne_zero,
    zero_ne_one] <;> ring

theorem deriv_faceZ (c : Point ℝ 3) (j : Fin 3) :
    Deriv (fun p => faceZShape c p) j (fun p => faceZGrad c p j) := by
  refine deriv_of_bend fun p t => ?_
  fin_cases j <;> simp only [bend, faceZShape, faceZGrad, shift, Fin.zero_eta, Fin.mk_one,
    Fin.reduceFinMk, Fin.isValue, Fin.reduceEq, reduceIte, Matrix.cons_val, one_ne_zero,
    zero_ne_one] <;> ring

theorem deriv_faceZGrad (c : Point ℝ 3) (j k : Fin 3) :
    Deriv (fun p => faceZGrad c p j) k (fun p => faceZHess c p (sym2 j k)) := by
  refine deriv_of_bend fun p t => ?_
  fin_cases j <;> fin_cases k <;> simp only [bend, faceZGrad, faceZHess, sym2, shift,
    Fin.zero_eta, Fin.mk_one,
    Fin.reduceFinMk, Fin.isValue, Fin.reduceEq, reduceIte, Matrix.cons_val, one_ne_zero,
    zero_ne_one] <;> ring

theorem deriv_faceZHess (c : Point ℝ 3) (j k l : Fin 3) :
    Deriv (fun p => faceZHess c p (sym2 j k)) l (fun p => faceZThird c p (sym3 j k l)) := by
  refine deriv_of_bend fun p t => ?_
  fin_cases j <;> fin_cases k <;> fin_cases l <;> simp only [bend, faceZHess, faceZThird, sym2, sym3,
    shift, Fin.zero_eta, Fin.mk_one,
    Fin.reduceFinMk, Fin.isValue, Fin.reduceEq, reduceIte, Matrix.cons_val, one_ne_zero,
    zero_ne_one] <;> ring

/-- The bubble of the 27-node element (hexahedron.hpp:252, a comment). -/
def centerShape (p : Point ℝ 3) : ℝ := (1 - p 0 * p 0) * (1 - p 1 * p 1) * (1 - p 2 * p 2)

/-- Its gradient. -/
def centerGrad (p : Point ℝ 3) : Point ℝ 3 :=
  ![-2 * p 0 * (1 - p 1 * p 1) * (1 - p 2 * p 2), -2 * p 1 * (1 - p 0 * p 0) * (1 - p 2 * p 2),
    -2 * p 2 * (1 - p 0 * p 0) * (1 - p 1 * p 1)]

theorem quadratic_center : Quadratic centerShape := by
  intro p j t
  fin_cases j <;> simp only [centerShape, put, Fin.zero_eta, Fin.mk_one,
    Fin.reduceFinMk, Fin.isValue, Fin.reduceEq, reduceIte, Matrix.cons_val, one_ne_zero,
    zero_ne_one] <;> ring

theorem deriv_center (j : Fin 3) : Deriv centerShape j (fun p => centerGrad p j) := by
  refine deriv_of_bend fun p t => ?_
  fin_cases j <;> simp only [bend, centerShape, centerGrad, shift, Fin.zero_eta, Fin.mk_one,
    Fin.reduceFinMk, Fin.isValue, Fin.reduceEq, reduceIte, Matrix.cons_val, one_ne_zero,
    zero_ne_one] <;> ring

theorem deriv_centerGrad (j k : Fin 3) :
    Deriv (fun p => centerGrad p j) k (fun p => centerHess p (sym2 j k)) := by
  refine deriv_of_bend fun p t => ?_
  fin_cases j <;> fin_cases k <;> simp only [bend, centerGrad, centerHess, sym2, shift,
    Fin.zero_eta, Fin.mk_one,
    Fin.reduceFinMk, Fin.isValue, Fin.reduceEq, reduceIte, Matrix.cons_val, one_ne_zero,
    zero_ne_one] <;> ring

theorem deriv_centerHess (j k l : Fin 3) :
    Deriv (fun p => centerHess p (sym2 j k)) l (fun p => centerThird p (sym3 j k l)) := by
  refine deriv_of_bend fun p t => ?_
  fin_cases j <;> fin_cases k <;> fin_cases l <;> simp only [bend, centerHess, centerThird, sym2,
    sym3, shift, Fin.zero_eta, Fin.mk_one,
    Fin.reduceFinMk, Fin.isValue, Fin.reduceEq, reduceIte, Matrix.cons_val, one_ne_zero,
    zero_ne_one] <;> ring

/-! ### The loops over edges and faces -/

theorem edges_all {P : (Point ℝ 3 → ℝ) → (Point ℝ 3 → ℝ) → Prop}
    {x y z x' y' z' : Point ℝ 3 → Point ℝ 3 → ℝ}
    (hx : ∀ c, P (fun p => x c p) (fun p => x' c p)) (hy : ∀ c, P (fun p => y c p) (fun p => y' c p))
    (hz : ∀ c, P (fun p => z c p) (fun p => z' c p)) (b : Fin 12) :
    P (fun p => edges x y z p b) (fun p => edges x' y' z' p b) := by
  fin_cases b <;> first | exact hx _ | exact hy _ | exact hz _

theorem faces_all {P : (Point ℝ 3 → ℝ) → (Point ℝ 3 → ℝ) → Prop}
    {x y z x' y' z' : Point ℝ 3 → Point ℝ 3 → ℝ}
    (hx : ∀ c, P (fun p => x c p) (fun p => x' c p)) (hy : ∀ c, P (fun p => y c p) (fun p => y' c p))
    (hz : ∀ c, P (fun p => z c p) (fun p => z' c p)) (b : Fin 6) :
    P (fun p => faces x y z p b) (fun p => faces x' y' z' p b) := by
  fin_cases b <;> first | exact hx _ | exact hy _ | exact hz _

theorem edges_apply {k : Nat} (x y z : Point ℝ 3 → Point ℝ 3 → Fin k → ℝ) (p : Point ℝ 3) (b : Fin 12)
    (r : Fin k) : edges x y z p b r
      = edges (fun c p => x c p r) (fun c p => y c p r) (fun c p => z c p r) p b := by
  fin_cases b <;> rfl

theorem faces_apply {k : Nat} (x y z : Point ℝ 3 → Point ℝ 3 → Fin k → ℝ) (p : Point ℝ 3) (b : Fin 6)
    (r : Fin k) : faces x y z p b r
      = faces (fun c p => x c p r) (fun c p => y c p r) (fun c p => z c p r) p b := by
  fin_cases b <;> rfl

/-! ### The elements -/

theorem cornerShape_cast (c q : Point ℚ 3) :
    cornerShape (K := ℝ) (embed c) (embed q) = ((cornerShape (K := ℚ) (embed c) q : ℚ) : ℝ) := by
  simp only [cornerShape, embed, Rat.cast_id]
  push_cast
  ring

theorem edges_cast (q : Point ℚ 3) (b : Fin 12) :
    edges (K := ℝ) edgeXShape edgeYShape edgeZShape (embed q) b
      = ((edges (K := ℚ) edgeXShape edgeYShape edgeZShape q b : ℚ) : ℝ) := by
  have hx : ∀ c q : Point ℚ 3, edgeXShape (K := ℝ) (embed c) (embed q)
      = ((edgeXShape (K := ℚ) (embed c) q : ℚ) : ℝ) := by
    intro c q
    simp only [edgeXShape, embed, Rat.cast_id]
    push_cast
    ring
  have hy : ∀ c q : Point ℚ 3, edgeYShape (K := ℝ) (embed c) (embed q)
      = ((edgeYShape (K := ℚ) (embed c) q : ℚ) : ℝ) := by
    intro c q
    simp only [edgeYShape, embed, Rat.cast_id]
    push_cast
    ring
  have hz : ∀ c q : Point ℚ 3, edgeZShape (K := ℝ) (embed c) (embed q)
      = ((edgeZShape (K := ℚ) (embed c) q : ℚ) : ℝ) := by
    intro c q
    simp only [edgeZShape, embed, Rat.cast_id]
    push_cast
    ring
  fin_cases b
  · exact hx _ _
  · exact hy _ _
  · exact hx _ _
  · exact hy _ _
  · exact hz _ _
  · exact hz _ _
  · exact hz _ _
  · exact hz _ _
  · exact hx _ _
  · exact hy _ _
  · exact hx _ _
  · exact hy _ _

theorem faces_cast (q : Point ℚ 3) (b : Fin 6) :
    faces (K := ℝ) faceXShape faceYShape faceZShape (embed q) b
      = ((faces (K := ℚ) faceXShape faceYShape faceZShape q b : ℚ) : ℝ) := by
  have hx : ∀ c q : Point ℚ 3, faceXShape (K := ℝ) (embed c) (embed q)
      = ((faceXShape (K := ℚ) (embed c) q : ℚ) : ℝ) := by
    intro c q
    simp only [faceXShape, embed, Rat.cast_id]
    push_cast
    ring
  have hy : ∀ c q : Point ℚ 3, faceYShape (K := ℝ) (embed c) (embed q)
      = ((faceYShape (K := ℚ) (embed c) q : ℚ) : ℝ) := by
    intro c q
    simp only [faceYShape, embed, Rat.cast_id]
    push_cast
    ring
  have hz : ∀ c q : Point ℚ 3, faceZShape (K := ℝ) (embed c) (embed q)
      = ((faceZShape (K := ℚ) (embed c) q : ℚ) : ℝ) := by
    intro c q
    simp only [faceZShape, embed, Rat.cast_id]
    push_cast
    ring
  fin_cases b
  · exact hz _ _
  · exact hy _ _
  · exact hx _ _
  · exact hy _ _
  · exact hx _ _
  · exact hz _ _

theorem hexFactor_cast (c x : ℚ) : hexFactor c (x : ℝ) = ((hexFactor c x : ℚ) : ℝ) := by
  simp only [hexFactor]
  split_ifs <;> push_cast <;> ring

theorem sum_hex8 (f : Fin 8 → ℝ) :
    ∑ i, f i = f 0 + f 1 + f 2 + f 3 + f 4 + f 5 + f 6 + f 7 := Fin.sum_univ_eight f

theorem hex8Nodes_eq : hex8Nodes = ![![-1, -1, -1], ![1, -1, -1], ![1, 1, -1], ![-1, 1, -1],
    ![-1, -1, 1], ![1, -1, 1], ![1, 1, 1], ![-1, 1, 1]] := by
  decide +kernel

theorem sound_hexahedron8 : Sound (hexahedron8 ℝ) id where
  cardinal := by
    refine cardinal_of_rat (M := (hexahedron8 ℚ).shapes) ?_ (by decide +kernel)
    intro q i
    exact cornerShape_cast _ _
  unity p := by
    simp only [hexahedron8, cornerShape, hex8Nodes_eq, Fin.sum_univ_eight, Matrix.cons_val, embed3,
      Rat.cast_neg, Rat.cast_one]
    ring
  linear j := by
    intro p
    fin_cases j <;> simp only [hexahedron8, cornerShape, hex8Nodes_eq, Fin.sum_univ_eight, real,
      Matrix.cons_val, embed3, Rat.cast_neg, Rat.cast_one, Fin.zero_eta, Fin.mk_one, Fin.reduceFinMk,
      id] <;> ring
  grads i j := deriv_corner _ j

theorem sound_hexahedron20 : Sound (hexahedron20 ℝ) id := by
  refine sound_hexahedron8.enrich ?_ ?_ ?_
  · exact zero_of_rat edges_cast (by decide +kernel)
  · exact cardinal_of_rat edges_cast (by decide +kernel)
  · intro b j
    simp only [edges_apply]
    exact edges_all (P := fun f g => Deriv f j g) (fun c => deriv_edgeX c j)
      (fun c => deriv_edgeY c j) (fun c => deriv_edgeZ c j) b

theorem sound_hexahedron26 : Sound (hexahedron26 ℝ) id := by
  refine sound_hexahedron20.enrich ?_ ?_ ?_
  · exact zero_of_rat faces_cast (by decide +kernel)
  · exact cardinal_of_rat faces_cast (by decide +kernel)
  · intro b j
    simp only [faces_apply]
    exact faces_all (P := fun f g => Deriv f j g) (fun c => deriv_faceX c j)
      (fun c => deriv_faceY c j) (fun c => deriv_faceZ c j) b

theorem deriv_hexFactor (c : ℚ) (x : ℝ) (t : ℝ) :
    hexFactor c (x + t) = hexFactor c x + t * hexGradFactor c x
      + t ^ 2 * ((hexFactor c (x + 1) + hexFactor c (x + -1) - 2 * hexFactor c x) / 2) := by
  simp only [hexFactor, hexGradFactor]
  split_ifs <;> ring

theorem quadratic_const (c : ℝ) : Quadratic (fun _ => c) := by
  intro p j t
  ring

theorem quadratic_coord (k : Fin 3) : Quadratic (fun p => p k) := by
  intro p j t
  simp only [put]
  split_ifs <;> ring

theorem sound_hexahedron27 : Sound (hexahedron27 ℝ) id where
  cardinal := by
    refine cardinal_of_rat (M := (hexahedron27 ℚ).shapes) ?_ (by decide +kernel)
    intro q i
    simp only [hexahedron27, embed, hexFactor_cast]
    push_cast
    ring
  unity p := by simpa using (quadratic_const 1).reproduces p
  linear j := (quadratic_coord j).reproduces
  grads i j := by
    refine deriv_of_bend fun p t => ?_
    fin_cases j <;> simp only [bend, hexahedron27, shift, Fin.zero_eta, Fin.mk_one,
      Fin.reduceFinMk, Fin.isValue, Fin.reduceEq, reduceIte, Matrix.cons_val, one_ne_zero,
      zero_ne_one, deriv_hexFactor _ _ t] <;> ring

/-! ### The 27-node element as an enrichment of the 26-node element -/

theorem quadratic26 (i : Fin 26) : Quadratic (fun p => (hexahedron26 ℝ).shapes p i) :=
  Quadratic.enrich
    (Quadratic.enrich (fun i => quadratic_corner _)
      (fun b => edges_all (P := fun f _ => Quadratic f) (x' := 0) (y' := 0) (z' := 0) quadratic_edgeX
        quadratic_edgeY quadratic_edgeZ b))
    (fun b => faces_all (P := fun f _ => Quadratic f) (x' := 0) (y' := 0) (z' := 0) quadratic_faceX
      quadratic_faceY quadratic_faceZ b) i

/-- The hierarchical version of the 27-node element. -/
noncomputable def hexahedron27' : Element ℝ 3 27 :=
  enrich (hexahedron26 ℝ) hex27Nodes (fun p => ![centerShape p]) (fun p => ![centerGrad p])

theorem nodes27 : hexahedron27'.nodes = hexNodes := by
  funext i
  refine Fin.addCases (m := 26) (n := 1) (fun a => ?_) (fun b => ?_) i
  · refine Fin.addCases (m := 20) (n := 6) (fun a => ?_) (fun b => ?_) a
    · refine Fin.addCases (m := 8) (n := 12) (fun a => ?_) (fun b => ?_) a
      · simp only [hexahedron27', hexahedron26, hexahedron20, hexahedron8, enrich, Fin.append_left]
        rfl
      · simp only [hexahedron27', hexahedron26, hexahedron20, hexahedron8, enrich, Fin.append_left,
          Fin.append_right]
        rfl
    · simp only [hexahedron27', hexahedron26, enrich, Fin.append_left, Fin.append_right]
      rfl
  · simp only [hexahedron27', enrich, Fin.append_right]
    fin_cases b
    rfl

theorem center_at (q : Point ℚ 3) : centerShape (embed q)
    = (((1 - q 0 * q 0) * (1 - q 1 * q 1) * (1 - q 2 * q 2) : ℚ) : ℝ) := by
  simp only [centerShape, embed]
  push_cast
  ring

theorem cardinal27' : Cardinal hexahedron27'.shapes (real hexahedron27'.nodes) := by
  refine cardinal_enrich sound_hexahedron26.cardinal ?_ ?_
  · refine zero_of_rat (N := fun p => ![centerShape p]) (nodes := (hexahedron26 ℝ).nodes)
      (M := fun q _ => (1 - q 0 * q 0) * (1 - q 1 * q 1) * (1 - q 2 * q 2)) ?_
      (by decide +kernel)
    intro q i
    fin_cases i
    exact center_at q
  · refine cardinal_of_rat (M := fun q _ => (1 - q 0 * q 0) * (1 - q 1 * q 1) * (1 - q 2 * q 2)) ?_
      (by decide +kernel)
    intro q i
    fin_cases i
    exact center_at q

theorem shapes27 (p : Point ℝ 3) (i : Fin 27) :
    hexahedron27'.shapes p i = (hexahedron27 ℝ).shapes p i := by
  have hq : Quadratic (fun p => hexahedron27'.shapes p i) :=
    Quadratic.enrich (m := 1) quadratic26 (fun b => by fin_cases b; exact quadratic_center) i
  have hr : ∑ j, (hexahedron27 ℝ).shapes p j * hexahedron27'.shapes (real (hexahedron27 ℝ).nodes j) i
      = hexahedron27'.shapes p i := hq.reproduces p
  rw [← hr]
  have hc : ∀ j, hexahedron27'.shapes (real (hexahedron27 ℝ).nodes j) i = if i = j then 1 else 0 := by
    intro j
    have := cardinal27' i j
    rw [nodes27] at this
    exact this
  simp only [hc, mul_ite, mul_one, mul_zero, Finset.sum_ite_eq, Finset.mem_univ, if_true]

theorem deriv27' (i : Fin 27) (j : Fin 3) :
    Deriv (fun p => hexahedron27'.shapes p i) j (fun p => hexahedron27'.grads p i j) :=
  deriv_enrich (m := 1) sound_hexahedron26.grads (fun b j => by fin_cases b; exact deriv_center j) i j

theorem grads27 (p : Point ℝ 3) (i : Fin 27) (j : Fin 3) :
    hexahedron27'.grads p i j = (hexahedron27 ℝ).grads p i j := by
  have h1 := deriv27' i j p
  have h2 := sound_hexahedron27.grads i j p
  simp only [shapes27] at h1
  exact h1.unique h2

/-! ### Second and third derivatives -/

theorem hess8 (i : Fin 8) (j k : Fin 3) :
    Deriv (fun p => (hexahedron8 ℝ).grads p i j) k (fun p => hessians8 p i (sym2 j k)) :=
  deriv_cornerGrad _ j k

theorem third8 (i : Fin 8) (j k l : Fin 3) :
    Deriv (fun p => hessians8 p i (sym2 j k)) l (fun p => thirds8 p i (sym3 j k l)) :=
  deriv_cornerHess _ j k l

/-- The derivative of one component of a corrected and extended table. -/
theorem deriv_table {n m k k' : Nat} {w : Fin m → Fin n → ℝ} {f : Point ℝ 3 → Fin n → Fin k → ℝ}
    {g : Point ℝ 3 → Fin m → Fin k → ℝ} {f' : Point ℝ 3 → Fin n → Fin k' → ℝ}
    {g' : Point ℝ 3 → Fin m → Fin k' → ℝ} {r : Fin k} {r' : Fin k'} {l : Fin 3}
    (hf : ∀ i, Deriv (fun p => f p i r) l (fun p => f' p i r'))
    (hg : ∀ b, Deriv (fun p => g p b r) l (fun p => g' p b r')) (i : Fin (n + m)) :
    Deriv (fun p => Fin.append (reduce w (g p) (f p)) (g p) i r) l
      (fun p => Fin.append (reduce w (g' p) (f' p)) (g' p) i r') := by
  refine Fin.addCases (fun a => ?_) (fun b => ?_) i
  · simp only [Fin.append_left]
    have h := deriv_reduce (w := w) (k := k') (r := r') (f := fun p i => f p i r)
      (g := fun p b => g p b r) hf hg a
    intro p
    have := h p
    simp only [HasPartial, reduce_eq, Pi.sub_apply, Finset.sum_apply, Pi.smul_apply] at this ⊢
    exact this
  · simpa only [Fin.append_right] using hg b

theorem hess20 (i : Fin 20) (j k : Fin 3) :
    Deriv (fun p => (hexahedron20 ℝ).grads p i j) k (fun p => hessians20 p i (sym2 j k)) := by
  refine deriv_table (m := 12) (fun i => hess8 i j k) (fun b => ?_) i
  simp only [edges_apply]
  exact edges_all (P := fun f g => Deriv f k g) (fun c => deriv_edgeXGrad c j k)
      (fun c => deriv_edgeYGrad c j k) (fun c => deriv_edgeZGrad c j k) b

theorem third20 (i : Fin 20) (j k l : Fin 3) :
    Deriv (fun p => hessians20 p i (sym2 j k)) l (fun p => thirds20 p i (sym3 j k l)) := by
  refine deriv_table (m := 12) (fun i => third8 i j k l) (fun b => ?_) i
  simp only [edges_apply]
  exact edges_all (P := fun f g => Deriv f l g) (fun c => deriv_edgeXHess c j k l)
      (fun c => deriv_edgeYHess c j k l) (fun c => deriv_edgeZHess c j k l) b

theorem hess26 (i : Fin 26) (j k : Fin 3) :
    Deriv (fun p => (hexahedron26 ℝ).grads p i j) k (fun p => hessians26 p i (sym2 j k)) := by
  refine deriv_table (m := 6) (fun i => hess20 i j k) (fun b => ?_) i
  simp only [faces_apply]
  exact faces_all (P := fun f g => Deriv f k g) (fun c => deriv_faceXGrad c j k)
      (fun c => deriv_faceYGrad c j k) (fun c => deriv_faceZGrad c j k) b

theorem third26 (i : Fin 26) (j k l : Fin 3) :
    Deriv (fun p => hessians26 p i (sym2 j k)) l (fun p => thirds26 p i (sym3 j k l)) := by
  refine deriv_table (m := 6) (fun i => third20 i j k l) (fun b => ?_) i
  simp only [faces_apply]
  exact faces_all (P := fun f g => Deriv f l g) (fun c => deriv_faceXHess c j k l)
      (fun c => deriv_faceYHess c j k l) (fun c => deriv_faceZHess c j k l) b

theorem hess27 (i : Fin 27) (j k : Fin 3) :
    Deriv (fun p => (hexahedron27 ℝ).grads p i j) k (fun p => hessians27 p i (sym2 j k)) := by
  simp only [← grads27]
  refine deriv_table (m := 1) (fun i => hess26 i j k) (fun b => ?_) i
  fin_cases b
  exact deriv_centerGrad j k

theorem third27 (i : Fin 27) (j k l : Fin 3) :
    Deriv (fun p => hessians27 p i (sym2 j k)) l (fun p => thirds27 p i (sym3 j k l)) := by
  refine deriv_table (m := 1) (fun i => third26 i j k l) (fun b => ?_) i
  fin_cases b
  exact deriv_centerHess j k l

end MiniCFD.Shape
