import Verif.Lemmas.Conform

/-! # The sides of tetrahedra, wedges and pyramids -/

set_option linter.unusedSimpArgs false

namespace MiniCFD.Conform

open MiniCFD.Shape

/-! ### Surfaces with nodes on edges, rewritten -/

/-- The nodes of the six-node triangle after the corners. -/
def triNodes : Fin 3 → Point ℚ 2 := ![![1 / 2, 1 / 2], ![0, 1 / 2], ![1 / 2, 0]]

def triNew (p : Point ℝ 2) : Fin 3 → ℝ := ![4 * p 0 * p 1, 4 * p 1 * (1 - p 0 - p 1), 4 * (1 - p 0 - p 1) * p 0]

def triNewGrads (p : Point ℝ 2) : Fin 3 → Point ℝ 2 :=
  ![![4 * p 1, 4 * p 0], ![-4 * p 1, 4 * (1 - p 0 - p 1) - 4 * p 1], ![4 * (1 - p 0 - p 1) - 4 * p 0, -4 * p 0]]

/-- The six-node triangle as an enriched one. -/
noncomputable def triangle6' : Element ℝ 2 6 := Shape.enrich (triangle3 ℝ) triNodes triNew triNewGrads

theorem triangle6_shapes (p : Point ℝ 2) (i : Fin 6) : (triangle6 ℝ).shapes p i = triangle6'.shapes p i := by
  refine Fin.addCases (m := 3) (n := 3) (fun a => ?_) (fun b => ?_) i
  · simp only [triangle6', Shape.enrich, Fin.append_left, reduce_eq]
    fin_cases a <;> expand [triangle6, triangle3, triNodes, triNew, Fin.reduceCastAdd, smul_eq_mul, Rat.cast_div,
      Rat.cast_ofNat] <;> ring
  · simp only [triangle6', Shape.enrich, Fin.append_right]
    fin_cases b <;> expand [triangle6, triNew, Fin.reduceNatAdd] <;> ring

theorem triangle6_grads (p : Point ℝ 2) (i : Fin 6) (r : Fin 2) :
    (triangle6 ℝ).grads p i r = triangle6'.grads p i r := by
  refine Fin.addCases (m := 3) (n := 3) (fun a => ?_) (fun b => ?_) i
  · simp only [triangle6', Shape.enrich, Fin.append_left, reduce_apply]
    fin_cases a <;> fin_cases r <;> expand [triangle6, triangle3, triNodes, triNewGrads, Fin.reduceCastAdd,
      Rat.cast_div, Rat.cast_ofNat] <;> ring
  · simp only [triangle6', Shape.enrich, Fin.append_right]
    fin_cases b <;> fin_cases r <;> expand [triangle6, triNewGrads, Fin.reduceNatAdd] <;> ring

/-! ### Tetrahedra -/

/-- The sides, in the order of `Tetrahedron4::faces_`. -/
def tetraSide : Fin 4 → Side
  | 0 => ⟨fun p => p 2 = 1 - p 0 - p 1, fun p => ![p 0, p 2], ![![1, -1, 0], ![0, -1, 1]], unit⟩
  | 1 => ⟨fun p => p 2 = 0, fun p => ![p 0, p 1], ![![1, 0, 0], ![0, 1, 0]], unit⟩
  | 2 => ⟨fun p => p 1 = 0, fun p => ![p 0, 1 - p 0 - p 1 - p 2], ![![1, 0, -1], ![0, 0, -1]], unit⟩
  | 3 => ⟨fun p => p 0 = 0, fun p => ![p 1, p 2], ![![0, 1, 0], ![0, 0, 1]], unit⟩

def tetraRow3 : Fin 4 → Fin 3 → Fin 4 := ![![0, 2, 1], ![0, 1, 3], ![0, 3, 2], ![1, 2, 3]]

theorem tetra4 (s : Fin 4) : (tetraSide s).Matches (tetrahedron4 ℝ) (triangle3 ℝ) (tetraRow3 s) where
  shapes p hp i := by
    fin_cases s <;> side hp [tetraSide] <;> fin_cases i <;>
      expand [tetraSide, tetraRow3, tetrahedron4, triangle3, hp] <;> ring
  grads p hp a i := by
    fin_cases s <;> side hp [tetraSide] <;> fin_cases a <;> fin_cases i <;>
      expand [tetraSide, tetraRow3, tetrahedron4, triangle3, hp] <;> ring

def tetraRow6 : Fin 4 → Fin 6 → Fin 10 :=
  ![![0, 2, 1, 6, 5, 4], ![0, 1, 3, 4, 8, 7], ![0, 3, 2, 7, 9, 6], ![1, 2, 3, 5, 9, 8]]

theorem tetra10 (s : Fin 4) : (tetraSide s).Matches (tetrahedron10 ℝ) (triangle6 ℝ) (tetraRow6 s) where
  shapes p hp i := by
    fin_cases s <;> side hp [tetraSide] <;> fin_cases i <;>
      expand [tetraSide, tetraRow6, tetrahedron10, triangle6, Fin.sum_univ_six, hp] <;> ring
  grads p hp a i := by
    fin_cases s <;> side hp [tetraSide] <;> fin_cases a <;> fin_cases i <;>
      expand [tetraSide, tetraRow6, tetrahedron10, triangle6, Fin.sum_univ_six, hp] <;> ring

/-! ### Wedges -/

/-- The triangles, in the order of `triangles_`. -/
def wedgeTri : Fin 2 → Side
  | 0 => ⟨fun p => p 2 = -1, fun p => ![p 0, 1 - p 0 - p 1], ![![1, -1, 0], ![0, -1, 0]], unit⟩
  | 1 => ⟨fun p => p 2 = 1, fun p => ![p 0, p 1], ![![1, 0, 0], ![0, 1, 0]], unit⟩

/-- The quadrangles, in the order of `quadrangles_`. -/
noncomputable def wedgeQuad : Fin 3 → Side
  | 0 => ⟨fun p => p 1 = 1 - p 0, fun p => ![p 1 - p 0, p 2], ![![-1 / 2, 1 / 2, 0], ![0, 0, 1]], unit⟩
  | 1 => ⟨fun p => p 0 = 0, fun p => ![1 - p 0 - p 1 - p 1, p 2], ![![0, -1 / 2, 0], ![0, 0, 1]], unit⟩
  | 2 => ⟨fun p => p 1 = 0, fun p => ![p 2, 1 - p 0 - p 1 - p 0], ![![0, 0, 1], ![-1 / 2, 0, 0]], unit⟩

def wedgeRow3 : Fin 2 → Fin 3 → Fin 6 := ![![0, 2, 1], ![3, 4, 5]]

def wedgeRow4 : Fin 3 → Fin 4 → Fin 6 := ![![0, 1, 4, 3], ![1, 2, 5, 4], ![0, 3, 5, 2]]

theorem wedge6_tri (s : Fin 2) : (wedgeTri s).Matches (wedge6 ℝ) (triangle3 ℝ) (wedgeRow3 s) where
  shapes p hp i := by
    fin_cases s <;> side hp [wedgeTri] <;> fin_cases i <;>
      expand [wedgeTri, wedgeRow3, wedge6, triangle3, hp] <;> ring
  grads p hp a i := by
    fin_cases s <;> side hp [wedgeTri] <;> fin_cases a <;> fin_cases i <;>
      expand [wedgeTri, wedgeRow3, wedge6, triangle3, hp] <;> ring

theorem wedge6_quad (s : Fin 3) : (wedgeQuad s).Matches (wedge6 ℝ) (quadrangle4 ℝ) (wedgeRow4 s) where
  shapes p hp i := by
    fin_cases s <;> side hp [wedgeQuad] <;> fin_cases i <;>
      expand [wedgeQuad, wedgeRow4, wedge6, quadrangle4, hp] <;> ring
  grads p hp a i := by
    fin_cases s <;> side hp [wedgeQuad] <;> fin_cases a <;> fin_cases i <;>
      expand [wedgeQuad, wedgeRow4, wedge6, quadrangle4, hp] <;> ring

def wedgeRow6 : Fin 2 → Fin 3 → Fin 9 := ![![2, 1, 0], ![6, 7, 8]]

def wedgeRow8 : Fin 3 → Fin 4 → Fin 9 := ![![0, 4, 6, 3], ![1, 5, 7, 4], ![3, 8, 5, 2]]

theorem wedge15_tri (s : Fin 2) : (wedgeTri s).Matches (wedge15 ℝ) (triangle6 ℝ)
    (extend (wedgeRow3 s) (wedgeRow6 s)) := by
  have h : (wedgeTri s).Matches (wedge15 ℝ) triangle6' (extend (wedgeRow3 s) (wedgeRow6 s)) := by
    refine (wedge6_tri s).enrich (wedgeRow6 s) (fun j => ?_) (fun p hp b => ?_) (fun p hp a b => ?_)
    · fin_cases s <;> fin_cases j <;> refine ⟨?_, ?_⟩ <;> (try funext i; fin_cases i) <;>
        expand [wedgeTri, wedgeRow6, wedge15Nodes, triNodes] <;> norm_num
    · fin_cases s <;> side hp [wedgeTri] <;> fin_cases b <;>
        expand [wedgeTri, wedgeRow6, wedge15New, triNew, hp] <;> ring
    · fin_cases s <;> side hp [wedgeTri] <;> fin_cases a <;> fin_cases b <;>
        expand [wedgeTri, wedgeRow6, wedge15NewGrads, triNewGrads, hp] <;> ring
  exact h.congr (fun _ _ => rfl) (fun _ _ _ => rfl) triangle6_shapes triangle6_grads

theorem wedge15_quad (s : Fin 3) : (wedgeQuad s).Matches (wedge15 ℝ) (quadrangle8 ℝ)
    (extend (wedgeRow4 s) (wedgeRow8 s)) := by
  refine (wedge6_quad s).enrich (wedgeRow8 s) (fun j => ?_) (fun p hp b => ?_) (fun p hp a b => ?_)
  · fin_cases s <;> fin_cases j <;> refine ⟨?_, ?_⟩ <;> (try funext i; fin_cases i) <;>
      expand [wedgeQuad, wedgeRow8, wedge15Nodes, quadrangle8Nodes] <;> norm_num
  · fin_cases s <;> side hp [wedgeQuad] <;> fin_cases b <;>
      expand [wedgeQuad, wedgeRow8, wedge15New, quadrangle8New, quadrangle8Nodes, hp] <;> ring
  · fin_cases s <;> side hp [wedgeQuad] <;> fin_cases a <;> fin_cases b <;>
      expand [wedgeQuad, wedgeRow8, wedge15NewGrads, quadrangle8NewGrads, quadrangle8Nodes, hp] <;> ring

/-- The functions of the nine-node quadrangle as products. -/
theorem quad9_shapes (p : Point ℝ 2) (i : Fin 9) : (quadrangle9 ℝ).shapes p i =
    ![(p 0 - 1) * p 0 / 2 * ((p 1 - 1) * p 1 / 2), (p 0 + 1) * p 0 / 2 * ((p 1 - 1) * p 1 / 2),
      (p 0 + 1) * p 0 / 2 * ((p 1 + 1) * p 1 / 2), (p 0 - 1) * p 0 / 2 * ((p 1 + 1) * p 1 / 2),
      (1 - p 0 * p 0) * ((p 1 - 1) * p 1 / 2), (p 0 + 1) * p 0 / 2 * (1 - p 1 * p 1),
      (1 - p 0 * p 0) * ((p 1 + 1) * p 1 / 2), (p 0 - 1) * p 0 / 2 * (1 - p 1 * p 1),
      (1 - p 0 * p 0) * (1 - p 1 * p 1)] i := by
  refine Fin.addCases (m := 8) (n := 1) (fun a => ?_) (fun b => ?_) i
  · refine Fin.addCases (m := 4) (n := 4) (fun a => ?_) (fun b => ?_) a
    · simp only [quadrangle9, quadrangle8, Shape.enrich, Fin.append_left, reduce_eq]
      fin_cases a <;> expand [quadrangle4, quadrangle8Nodes, quadrangle8New, quadrangle9Nodes, quadrangle9New,
        Fin.sum_univ_one, Fin.reduceCastAdd, smul_eq_mul] <;> ring
    · simp only [quadrangle9, quadrangle8, Shape.enrich, Fin.append_left, Fin.append_right, reduce_eq]
      fin_cases b <;> expand [quadrangle8Nodes, quadrangle8New, quadrangle9Nodes, quadrangle9New,
        Fin.sum_univ_one, Fin.reduceCastAdd, Fin.reduceNatAdd, smul_eq_mul] <;> ring
  · simp only [quadrangle9, Shape.enrich, Fin.append_right]
    fin_cases b
    expand [quadrangle9New, Fin.reduceNatAdd]

theorem quad9_grads (p : Point ℝ 2) (i : Fin 9) (r : Fin 2) : (quadrangle9 ℝ).grads p i r =
    (![![(p 0 - 1 / 2) * ((p 1 - 1) * p 1 / 2), (p 0 - 1) * p 0 / 2 * (p 1 - 1 / 2)],
      ![(p 0 + 1 / 2) * ((p 1 - 1) * p 1 / 2), (p 0 + 1) * p 0 / 2 * (p 1 - 1 / 2)],
      ![(p 0 + 1 / 2) * ((p 1 + 1) * p 1 / 2), (p 0 + 1) * p 0 / 2 * (p 1 + 1 / 2)],
      ![(p 0 - 1 / 2) * ((p 1 + 1) * p 1 / 2), (p 0 - 1) * p 0 / 2 * (p 1 + 1 / 2)],
      ![-2 * p 0 * ((p 1 - 1) * p 1 / 2), (1 - p 0 * p 0) * (p 1 - 1 / 2)],
      ![(p 0 + 1 / 2) * (1 - p 1 * p 1), (p 0 + 1) * p 0 / 2 * (-2 * p 1)],
      ![-2 * p 0 * ((p 1 + 1) * p 1 / 2), (1 - p 0 * p 0) * (p 1 + 1 / 2)],
      ![(p 0 - 1 / 2) * (1 - p 1 * p 1), (p 0 - 1) * p 0 / 2 * (-2 * p 1)],
      ![-2 * p 0 * (1 - p 1 * p 1), (1 - p 0 * p 0) * (-2 * p 1)]] : Fin 9 → Fin 2 → ℝ) i r := by
  refine Fin.addCases (m := 8) (n := 1) (fun a => ?_) (fun b => ?_) i
  · refine Fin.addCases (m := 4) (n := 4) (fun a => ?_) (fun b => ?_) a
    · simp only [quadrangle9, quadrangle8, Shape.enrich, Fin.append_left, reduce_apply, reduce_eq]
      fin_cases a <;> fin_cases r <;> expand [quadrangle4, quadrangle8Nodes, quadrangle8New, quadrangle9Nodes,
        quadrangle8NewGrads, quadrangle9NewGrads, Fin.sum_univ_one, Fin.reduceCastAdd, smul_eq_mul] <;> ring
    · simp only [quadrangle9, quadrangle8, Shape.enrich, Fin.append_left, Fin.append_right, reduce_apply]
      fin_cases b <;> fin_cases r <;> expand [quadrangle8Nodes, quadrangle8New, quadrangle9Nodes,
        quadrangle8NewGrads, quadrangle9NewGrads, Fin.sum_univ_one, Fin.reduceCastAdd, Fin.reduceNatAdd]
        <;> ring
  · simp only [quadrangle9, Shape.enrich, Fin.append_right]
    fin_cases b
    fin_cases r <;> expand [quadrangle9NewGrads, Fin.reduceNatAdd]

def wedge18Row9 : Fin 3 → Fin 9 → Fin 18 :=
  ![![0, 1, 4, 3, 6, 10, 12, 9, 15], ![1, 2, 5, 4, 7, 11, 13, 10, 16], ![0, 3, 5, 2, 9, 14, 11, 8, 17]]

def wedge18Row6 : Fin 2 → Fin 6 → Fin 18 := ![![0, 2, 1, 8, 7, 6], ![3, 4, 5, 12, 13, 14]]

theorem wedge18_tri (s : Fin 2) : (wedgeTri s).Matches (wedge18 ℝ) (triangle6 ℝ) (wedge18Row6 s) where
  shapes p hp i := by
    fin_cases s <;> side hp [wedgeTri] <;> fin_cases i <;>
      expand [wedgeTri, wedge18Row6, wedge18, triangle6, Fin.sum_univ_six, hp] <;> ring
  grads p hp a i := by
    fin_cases s <;> side hp [wedgeTri] <;> fin_cases a <;> fin_cases i <;>
      expand [wedgeTri, wedge18Row6, wedge18, triangle6, Fin.sum_univ_six, hp] <;> ring

theorem sum_nine (f : Fin 9 → ℝ) :
    ∑ i, f i = f 0 + f 1 + f 2 + f 3 + f 4 + f 5 + f 6 + f 7 + f 8 := by
  rw [Fin.sum_univ_castSucc, Fin.sum_univ_eight]
  rfl

theorem wedge18_quad (s : Fin 3) : (wedgeQuad s).Matches (wedge18 ℝ) (quadrangle9 ℝ) (wedge18Row9 s) where
  shapes p hp i := by
    simp only [quad9_shapes]
    fin_cases s <;> side hp [wedgeQuad] <;> fin_cases i <;>
      expand [wedgeQuad, wedge18Row9, wedge18, sum_nine, hp] <;> ring
  grads p hp a i := by
    simp only [quad9_grads]
    fin_cases s <;> side hp [wedgeQuad] <;> fin_cases a <;> fin_cases i <;>
      expand [wedgeQuad, wedge18Row9, wedge18, sum_nine, hp] <;> ring

/-! ### Pyramids -/

/-- The bottom. -/
def pyrBottom : Side := ⟨fun p => p 2 = -1, fun p => ![p 1, p 0], ![![0, 1, 0], ![1, 0, 0]], unit⟩

/-- The triangles, in the order of `Pyramid5::faces_`. -/
noncomputable def pyrSide : Fin 4 → Side
  | 0 => ⟨fun p => p 1 = -1, fun p => ![(1 - p 0) * (1 - p 2) / 4, (1 + p 0) * (1 - p 2) / 4],
      ![![1, 0, 0], ![0, 0, 1]],
      fun p => ![![-(1 - p 2) / 4, (1 - p 2) / 4], ![-(1 - p 0) / 4, -(1 + p 0) / 4]]⟩
  | 1 => ⟨fun p => p 0 = 1, fun p => ![(1 - p 1) * (1 - p 2) / 4, (1 + p 1) * (1 - p 2) / 4],
      ![![0, 1, 0], ![0, 0, 1]],
      fun p => ![![-(1 - p 2) / 4, (1 - p 2) / 4], ![-(1 - p 1) / 4, -(1 + p 1) / 4]]⟩
  | 2 => ⟨fun p => p 1 = 1, fun p => ![(1 + p 0) * (1 - p 2) / 4, (1 - p 0) * (1 - p 2) / 4],
      ![![-1, 0, 0], ![0, 0, 1]],
      fun p => ![![-(1 - p 2) / 4, (1 - p 2) / 4], ![-(1 + p 0) / 4, -(1 - p 0) / 4]]⟩
  | 3 => ⟨fun p => p 0 = -1, fun p => ![(1 + p 1) * (1 - p 2) / 4, (1 - p 1) * (1 - p 2) / 4],
      ![![0, -1, 0], ![0, 0, 1]],
      fun p => ![![-(1 - p 2) / 4, (1 - p 2) / 4], ![-(1 + p 1) / 4, -(1 - p 1) / 4]]⟩

def pyrRow3 : Fin 4 → Fin 3 → Fin 5 := ![![0, 1, 4], ![1, 2, 4], ![2, 3, 4], ![3, 0, 4]]

def pyrRow6 : Fin 4 → Fin 3 → Fin 8 := ![![0, 5, 4], ![1, 6, 5], ![2, 7, 6], ![3, 4, 7]]

def pyrBottom4 : Fin 4 → Fin 5 := ![0, 3, 2, 1]

def pyrBottom8 : Fin 4 → Fin 8 := ![3, 2, 1, 0]

def pyrBottom9 : Fin 1 → Fin 1 := fun b => b

theorem pyramid5_bottom : pyrBottom.Matches (pyramid5 ℝ) (quadrangle4 ℝ) pyrBottom4 where
  shapes p hp i := by
    side hp [pyrBottom]
    fin_cases i <;> expand [pyrBottom, pyrBottom4, pyrBottom8, pyrBottom9, pyramid5, pyramidBase, pyramidBaseShape, quadrangle4, hp] <;> ring
  grads p hp a i := by
    side hp [pyrBottom]
    fin_cases a <;> fin_cases i <;>
      expand [pyrBottom, pyrBottom4, pyrBottom8, pyrBottom9, pyramid5, pyramidBase, pyramidBaseGrad, quadrangle4, hp] <;> ring

theorem pyramid13_bottom : pyrBottom.Matches (pyramid13 ℝ) (quadrangle8 ℝ)
    (extend pyrBottom4 pyrBottom8) := by
  refine pyramid5_bottom.enrich pyrBottom8 (fun j => ?_) (fun p hp b => ?_) (fun p hp a b => ?_)
  · fin_cases j <;> refine ⟨?_, ?_⟩ <;> (try funext i; fin_cases i) <;>
      expand [pyrBottom, pyrBottom4, pyrBottom8, pyrBottom9, pyramid13Nodes, quadrangle8Nodes]
  · side hp [pyrBottom]
    fin_cases b <;> expand [pyrBottom, pyrBottom4, pyrBottom8, pyrBottom9, pyramid13Nodes, pyramid13New, pyramidEdgeX, pyramidEdgeY, pyramidEdgeZ,
      quadrangle8Nodes, quadrangle8New, hp] <;> ring
  · side hp [pyrBottom]
    fin_cases a <;> fin_cases b <;> expand [pyrBottom, pyrBottom4, pyrBottom8, pyrBottom9, pyramid13Nodes, pyramid13NewGrads, pyramidEdgeXGrad,
      pyramidEdgeYGrad, pyramidEdgeZGrad, quadrangle8Nodes, quadrangle8NewGrads, hp] <;> ring

theorem pyramid14_bottom : pyrBottom.Matches (pyramid14 ℝ) (quadrangle9 ℝ)
    (extend (extend pyrBottom4 pyrBottom8) pyrBottom9) := by
  refine pyramid13_bottom.enrich pyrBottom9 (fun j => ?_) (fun p hp b => ?_) (fun p hp a b => ?_)
  · fin_cases j <;> refine ⟨?_, ?_⟩ <;> (try funext i; fin_cases i) <;>
      expand [pyrBottom, pyrBottom4, pyrBottom8, pyrBottom9, pyramid14Nodes, quadrangle9Nodes]
  · side hp [pyrBottom]
    fin_cases b <;> expand [pyrBottom, pyrBottom4, pyrBottom8, pyrBottom9, pyramid14New, quadrangle9New, Fin.sum_univ_one, hp] <;> ring
  · side hp [pyrBottom]
    fin_cases a <;> fin_cases b <;> expand [pyrBottom, pyrBottom4, pyrBottom8, pyrBottom9, pyramid14NewGrads, quadrangle9NewGrads,
      Fin.sum_univ_one, hp] <;> ring

theorem pyramid5_side (s : Fin 4) : (pyrSide s).Matches (pyramid5 ℝ) (triangle3 ℝ) (pyrRow3 s) where
  shapes p hp i := by
    fin_cases s <;> side hp [pyrSide] <;> fin_cases i <;>
      expand [pyrSide, pyrRow3, pyramid5, pyramidBase, pyramidBaseShape, triangle3, hp] <;> ring
  grads p hp a i := by
    fin_cases s <;> side hp [pyrSide] <;> fin_cases a <;> fin_cases i <;>
      expand [pyrSide, pyrRow3, pyramid5, pyramidBase, pyramidBaseGrad, triangle3, hp] <;> ring

theorem pyramid13_side (s : Fin 4) : (pyrSide s).Matches (pyramid13 ℝ) (triangle6 ℝ)
    (extend (pyrRow3 s) (pyrRow6 s)) := by
  have h : (pyrSide s).Matches (pyramid13 ℝ) triangle6' (extend (pyrRow3 s) (pyrRow6 s)) := by
    refine (pyramid5_side s).enrich (pyrRow6 s) (fun j => ?_) (fun p hp b => ?_) (fun p hp a b => ?_)
    · fin_cases s <;> fin_cases j <;> refine ⟨?_, ?_⟩ <;> (try funext i; fin_cases i) <;>
        expand [pyrSide, pyrRow6, pyramid13Nodes, triNodes] <;> norm_num
    · fin_cases s <;> side hp [pyrSide] <;> fin_cases b <;>
        expand [pyrSide, pyrRow6, pyramid13Nodes, pyramid13New, pyramidEdgeX, pyramidEdgeY, pyramidEdgeZ, triNew,
          hp] <;> ring
    · fin_cases s <;> side hp [pyrSide] <;> fin_cases a <;> fin_cases b <;>
        expand [pyrSide, pyrRow6, pyramid13Nodes, pyramid13NewGrads, pyramidEdgeXGrad, pyramidEdgeYGrad,
          pyramidEdgeZGrad, triNewGrads, hp] <;> ring
  exact h.congr (fun _ _ => rfl) (fun _ _ _ => rfl) triangle6_shapes triangle6_grads

theorem pyramid14_side (s : Fin 4) : (pyrSide s).Matches (pyramid14 ℝ) (triangle6 ℝ)
    (fun j => Fin.castAdd 1 (extend (pyrRow3 s) (pyrRow6 s) j)) := by
  refine (pyramid13_side s).enrich_inner (fun p hp b => ?_) (fun p hp a b => ?_)
  · fin_cases s <;> side hp [pyrSide] <;> fin_cases b <;> expand [pyramid14New, hp] <;> ring
  · fin_cases s <;> side hp [pyrSide] <;> fin_cases a <;> fin_cases b <;>
      expand [pyrSide, pyramid14NewGrads, hp] <;> ring

end MiniCFD.Conform
