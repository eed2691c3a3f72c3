import Verif.Lemmas.Conform

/-! # The sides of the hexahedra -/

set_option linter.unusedSimpArgs false

namespace MiniCFD.Conform

open MiniCFD.Shape

/-- The sides, in the order of `Hexahedron27::faces_`. -/
def hexSide : Fin 6 → Side
  | 0 => ⟨fun p => p 2 = -1, fun p => ![p 1, p 0], ![![0, 1, 0], ![1, 0, 0]], unit⟩
  | 1 => ⟨fun p => p 1 = -1, fun p => ![p 0, p 2], ![![1, 0, 0], ![0, 0, 1]], unit⟩
  | 2 => ⟨fun p => p 0 = 1, fun p => ![p 1, p 2], ![![0, 1, 0], ![0, 0, 1]], unit⟩
  | 3 => ⟨fun p => p 1 = 1, fun p => ![-p 0, p 2], ![![-1, 0, 0], ![0, 0, 1]], unit⟩
  | 4 => ⟨fun p => p 0 = -1, fun p => ![p 2, p 1], ![![0, 0, 1], ![0, 1, 0]], unit⟩
  | 5 => ⟨fun p => p 2 = 1, fun p => ![p 0, p 1], ![![1, 0, 0], ![0, 1, 0]], unit⟩

def hexRow4 : Fin 6 → Fin 4 → Fin 8 :=
  ![![0, 3, 2, 1], ![0, 1, 5, 4], ![1, 2, 6, 5], ![2, 3, 7, 6], ![0, 4, 7, 3], ![4, 5, 6, 7]]

def hexRow8 : Fin 6 → Fin 4 → Fin 12 :=
  ![![3, 2, 1, 0], ![0, 5, 8, 4], ![1, 6, 9, 5], ![2, 7, 10, 6], ![4, 11, 7, 3], ![8, 9, 10, 11]]

theorem hex8Nodes_eq : hex8Nodes = ![![-1, -1, -1], ![1, -1, -1], ![1, 1, -1], ![-1, 1, -1],
    ![-1, -1, 1], ![1, -1, 1], ![1, 1, 1], ![-1, 1, 1]] := by
  funext i
  fin_cases i <;> rfl

theorem hex20Nodes_eq : hex20Nodes = ![![0, -1, -1], ![1, 0, -1], ![0, 1, -1], ![-1, 0, -1],
    ![-1, -1, 0], ![1, -1, 0], ![1, 1, 0], ![-1, 1, 0],
    ![0, -1, 1], ![1, 0, 1], ![0, 1, 1], ![-1, 0, 1]] := by
  funext i
  fin_cases i <;> rfl

theorem hex8 (s : Fin 6) : (hexSide s).Matches (hexahedron8 ℝ) (quadrangle4 ℝ) (hexRow4 s) where
  shapes p hp i := by
    fin_cases s <;> side hp [hexSide] <;>
    fin_cases i <;> expand [hexSide, hexRow4, hexahedron8, hex8Nodes_eq, cornerShape, quadrangle4, hp] <;> ring
  grads p hp a i := by
    fin_cases s <;> side hp [hexSide] <;>
    fin_cases a <;> fin_cases i <;> expand [hexSide, hexRow4, hexahedron8, hex8Nodes_eq, cornerGrad, quadrangle4, hp] <;> ring

theorem hex20 (s : Fin 6) : (hexSide s).Matches (hexahedron20 ℝ) (quadrangle8 ℝ) (extend (hexRow4 s) (hexRow8 s)) := by
  refine (hex8 s).enrich (hexRow8 s) (fun j => ?_) (fun p hp b => ?_) (fun p hp a b => ?_)
  · fin_cases s <;> fin_cases j <;> refine ⟨?_, ?_⟩ <;> (try funext i; fin_cases i) <;>
      expand [hexSide, hexRow8, hex20Nodes_eq, quadrangle8Nodes, neg_neg, neg_zero]
  · fin_cases s <;> side hp [hexSide] <;>
    fin_cases b <;> expand [hexSide, hexRow8, edges, hex20Nodes_eq, edgeXShape, edgeYShape, edgeZShape, quadrangle8Nodes, quadrangle8New, hp] <;> ring
  · fin_cases s <;> side hp [hexSide] <;> fin_cases a <;>
    fin_cases b <;> expand [hexSide, hexRow8, edges, hex20Nodes_eq, edgeXGrad, edgeYGrad, edgeZGrad, quadrangle8Nodes, quadrangle8NewGrads, hp] <;> ring

theorem hex26Nodes_eq : hex26Nodes = ![![0, 0, -1], ![0, -1, 0], ![1, 0, 0], ![0, 1, 0], ![-1, 0, 0],
    ![0, 0, 1]] := by
  funext i
  fin_cases i <;> rfl

def hexRow9 : Fin 6 → Fin 1 → Fin 6 := fun s _ => s

theorem hex26 (s : Fin 6) : (hexSide s).Matches (hexahedron26 ℝ) (quadrangle9 ℝ)
    (extend (extend (hexRow4 s) (hexRow8 s)) (hexRow9 s)) := by
  refine (hex20 s).enrich (hexRow9 s) (fun j => ?_) (fun p hp b => ?_) (fun p hp a b => ?_)
  · fin_cases s <;> fin_cases j <;> refine ⟨?_, ?_⟩ <;> (try funext i; fin_cases i) <;>
      expand [hexSide, hexRow9, hex26Nodes_eq, quadrangle9Nodes, neg_neg, neg_zero]
  · fin_cases s <;> side hp [hexSide] <;> fin_cases b <;>
    expand [hexSide, hexRow9, faces, hex26Nodes_eq, faceXShape, faceYShape, faceZShape,
      quadrangle9Nodes, quadrangle9New, Fin.sum_univ_one, hp] <;> ring
  · fin_cases s <;> side hp [hexSide] <;> fin_cases a <;> fin_cases b <;>
    expand [hexSide, hexRow9, faces, hex26Nodes_eq, faceXGrad, faceYGrad, faceZGrad,
      quadrangle9Nodes, quadrangle9NewGrads, Fin.sum_univ_one, hp] <;> ring

theorem hex27 (s : Fin 6) : (hexSide s).Matches (hexahedron27 ℝ) (quadrangle9 ℝ)
    (fun j => Fin.castAdd 1 (extend (extend (hexRow4 s) (hexRow8 s)) (hexRow9 s) j)) := by
  have h : (hexSide s).Matches hexahedron27' (quadrangle9 ℝ)
      (fun j => Fin.castAdd 1 (extend (extend (hexRow4 s) (hexRow8 s)) (hexRow9 s) j)) := by
    refine (hex26 s).enrich_inner (fun p hp b => ?_) (fun p hp a b => ?_)
    · fin_cases s <;> side hp [hexSide] <;> fin_cases b <;> expand [centerShape, hp] <;> ring
    · fin_cases s <;> side hp [hexSide] <;> fin_cases a <;> fin_cases b <;>
        expand [hexSide, centerGrad, hp] <;> ring
  exact h.congr (fun p i => (shapes27 p i).symm) (fun p i r => (grads27 p i r).symm) (fun _ _ => rfl)
    (fun _ _ _ => rfl)

end MiniCFD.Conform
