import Verif.Lemmas.SortNodes
import Mathlib.LinearAlgebra.Matrix.Determinant.Basic
import Mathlib.Tactic.Ring
import Mathlib.Tactic.Linarith
import Mathlib.Tactic.NormNum

/-!
# C41: face node ordering is outward and complete
-/

namespace MiniCFD.SortNodes

open MiniCFD.Shape MiniCFD.Spec.SortNodes

/-- The shape of each class of cells. -/
def shapeOf : Kind → Option Spec.SortNodes.Shape
  | .tetrahedron4 | .tetrahedron10 => some .tetrahedron
  | .pyramid5 | .pyramid13 | .pyramid14 => some .pyramid
  | .wedge6 | .wedge15 | .wedge18 => some .wedge
  | .hexahedron8 | .hexahedron20 | .hexahedron26 | .hexahedron27 => some .hexahedron
  | _ => none

instance (ps : List Pt) (r : List Nat) : Decidable (Proper ps r) :=
  decidable_of_iff
    ((∀ i < cornerCount r.length, ∀ q < ps.length,
      let c := cornerCount r.length
      let at' := fun j => ps.getD (r.getD (j % c) 0) (0, 0, 0)
      let t := triple (at' i) (at' (i + 1)) (at' (i + 2)) (ps.getD q (0, 0, 0))
      if q ∈ r then t = 0 else t < 0) ∧
    (∀ i < cornerCount r.length, cornerCount r.length < r.length →
      let c := cornerCount r.length
      ps.getD (r.getD (c + i) 0) (0, 0, 0) = mean ps [r.getD i 0, r.getD ((i + 1) % c) 0]) ∧
    (2 * cornerCount r.length < r.length →
      ps.getD (r.getD (2 * cornerCount r.length) 0) (0, 0, 0)
        = mean ps (r.take (cornerCount r.length))))
    ⟨fun h => ⟨h.1, h.2.1, h.2.2⟩, fun h => ⟨h.1, h.2, h.3⟩⟩

/-- The finite check for one class with the standard numbering. -/
def Checked (k : Kind) (shape : Spec.SortNodes.Shape) : Prop :=
  (shape.positions k.count).length = k.count ∧
  ∀ l ∈ shape.planes, (faceNodes (shape.positions k.count) l).length ≤ 9 ∧
    (k = .pyramid5 → (faceNodes (shape.positions k.count) l).length ≤ 4) ∧
    ∃ r ∈ sortNodes k (List.range k.count) (faceNodes (shape.positions k.count) l),
      r.Perm (faceNodes (shape.positions k.count) l) ∧ Proper (shape.positions k.count) r

instance (k : Kind) (shape : Spec.SortNodes.Shape) : Decidable (Checked k shape) := by
  unfold Checked; infer_instance

theorem checked (k : Kind) (shape : Spec.SortNodes.Shape) (h : shapeOf k = some shape) : Checked k shape := by
  cases k <;> simp only [shapeOf, reduceCtorEq] at h <;> cases h <;> decide +kernel

/-- **C41.** For every class of cells, every numbering of its nodes by distinct numbers, every face of the
cell, and the nodes of that face given in any order, `SortNodesOnFace` returns the same nodes, listed
properly: corners first, going round counter-clockwise seen from outside, then the middles of the
edges in the same order, then the middle of the face. -/
theorem sort_proper (k : Kind) (shape : Spec.SortNodes.Shape) (hk : shapeOf k = some shape)
    (cell : List Nat) (hn : cell.length = k.count) (hc : cell.Nodup) (l : Int × Int × Int × Int)
    (hl : l ∈ shape.planes) (face : List Nat)
    (hf : face.Perm ((faceNodes (shape.positions k.count) l).map (cell.getD · 0))) :
    ∃ r, sortNodes k cell face = some (r.map (cell.getD · 0)) ∧ (r.map (cell.getD · 0)).Perm face ∧
      r.Perm (faceNodes (shape.positions k.count) l) ∧ Proper (shape.positions k.count) r := by
  obtain ⟨hlen, hch⟩ := checked k shape hk
  obtain ⟨-, h4, r, hr, hp, hpr⟩ := hch l hl
  refine ⟨r, ?_, (hp.map _).trans hf.symm, hp, hpr⟩
  have hs : ∀ c ∈ faceNodes (shape.positions k.count) l, c < cell.length := by
    intro c h
    rw [faceNodes, List.mem_filter, List.mem_range, hlen, ← hn] at h
    exact h.1
  have := sortNodes_natural k hc hs hf h4
  rw [this, hn, Option.mem_def.1 hr]
  rfl

/-- **C41.** The same, told without the numbers of a table: whatever numbers the nodes carry, the order of
the input is irrelevant. -/
theorem sort_order_irrelevant (k : Kind) (shape : Spec.SortNodes.Shape) (hk : shapeOf k = some shape)
    (cell : List Nat) (hn : cell.length = k.count) (hc : cell.Nodup) (l : Int × Int × Int × Int)
    (hl : l ∈ shape.planes) (face face' : List Nat)
    (hf : face.Perm ((faceNodes (shape.positions k.count) l).map (cell.getD · 0))) (h : face'.Perm face) :
    sortNodes k cell face' = sortNodes k cell face := by
  obtain ⟨hlen, hch⟩ := checked k shape hk
  obtain ⟨-, h4, -⟩ := hch l hl
  have hs : ∀ c ∈ faceNodes (shape.positions k.count) l, c < cell.length := by
    intro c h
    rw [faceNodes, List.mem_filter, List.mem_range, hlen, ← hn] at h
    exact h.1
  exact (sortNodes_natural k hc hs (h.trans hf) h4).trans (sortNodes_natural k hc hs hf h4).symm

/-- Hypotheses met: a 15-node wedge numbered from 100 and a shuffled quadrangle. -/
example : sortNodes .wedge15 (List.range' 100 15) [108, 100, 111, 103, 114, 105, 109, 102]
    = some [100, 103, 105, 102, 109, 114, 111, 108] := by decide +kernel

/-- **C41.** The faces of a cell close up: every edge that is traversed by a sorted face is traversed by
exactly one sorted face in each direction. -/
theorem faces_closed (k : Kind) (shape : Spec.SortNodes.Shape) (hk : shapeOf k = some shape) :
    ∃ rows, shape.planes.mapM
        (fun l => sortNodes k (List.range k.count) (faceNodes (shape.positions k.count) l)) = some rows ∧
      (rows.flatMap directedEdges).Nodup ∧
      ∀ e ∈ rows.flatMap directedEdges, (e.2, e.1) ∈ rows.flatMap directedEdges := by
  have : ∃ rows ∈ shape.planes.mapM
        (fun l => sortNodes k (List.range k.count) (faceNodes (shape.positions k.count) l)),
      (rows.flatMap directedEdges).Nodup ∧
      ∀ e ∈ rows.flatMap directedEdges, (e.2, e.1) ∈ rows.flatMap directedEdges := by
    cases k <;> simp only [shapeOf, reduceCtorEq] at hk <;> cases hk <;> decide +kernel
  exact this

/-! ### Outwardness in physical space -/

/-- A point as a vector of reals. -/
def toVec (p : Pt) : Fin 3 → ℝ := ![p.1, p.2.1, p.2.2]

/-- The image of a point under `x ↦ A x + b`. -/
def image (A : Matrix (Fin 3) (Fin 3) ℝ) (b : Fin 3 → ℝ) (p : Pt) : Fin 3 → ℝ := A.mulVec (toVec p) + b

/-- `(b - a) × (c - b) · (q - a)` for real points. -/
def realTriple (a b c q : Fin 3 → ℝ) : ℝ :=
  ((b - a) 1 * (c - b) 2 - (b - a) 2 * (c - b) 1) * (q - a) 0
    + ((b - a) 2 * (c - b) 0 - (b - a) 0 * (c - b) 2) * (q - a) 1
    + ((b - a) 0 * (c - b) 1 - (b - a) 1 * (c - b) 0) * (q - a) 2

theorem realTriple_image (A : Matrix (Fin 3) (Fin 3) ℝ) (b : Fin 3 → ℝ) (x y z q : Pt) :
    realTriple (image A b x) (image A b y) (image A b z) (image A b q) = A.det * (triple x y z q : ℤ) := by
  simp only [realTriple, image, toVec, triple, Matrix.det_fin_three, Pi.sub_apply, Pi.add_apply,
    Matrix.mulVec, dotProduct, Fin.sum_univ_three, Fin.isValue, Matrix.cons_val]
  push_cast
  ring

/-- **C41.** In physical space: when a cell is a positively oriented affine image of the standard one, the
normals of the sorted faces point out of the cell: each node of the cell is behind the plane through
any three consecutive corners, or on it if it belongs to the face. -/
theorem sort_outward (k : Kind) (shape : Spec.SortNodes.Shape) (hk : shapeOf k = some shape)
    (cell : List Nat) (hn : cell.length = k.count) (hc : cell.Nodup) (l : Int × Int × Int × Int)
    (hl : l ∈ shape.planes) (face : List Nat)
    (hf : face.Perm ((faceNodes (shape.positions k.count) l).map (cell.getD · 0)))
    (A : Matrix (Fin 3) (Fin 3) ℝ) (hA : 0 < A.det) (b : Fin 3 → ℝ) (x : Nat → Fin 3 → ℝ)
    (hx : ∀ c < k.count, x (cell.getD c 0) = image A b ((shape.positions k.count).getD c (0, 0, 0))) :
    ∃ sorted, sortNodes k cell face = some sorted ∧ sorted.Perm face ∧
      ∀ i < cornerCount face.length, ∀ q ∈ cell,
        let c := cornerCount face.length
        let t := realTriple (x (sorted.getD i 0)) (x (sorted.getD ((i + 1) % c) 0))
          (x (sorted.getD ((i + 2) % c) 0)) (x q)
        if q ∈ face then t = 0 else t < 0 := by
  obtain ⟨r, h1, h2, h3, h4⟩ := sort_proper k shape hk cell hn hc l hl face hf
  refine ⟨_, h1, h2, ?_⟩
  have hlen := (checked k shape hk).1
  have hr : ∀ c ∈ r, c < k.count := by
    intro c h
    have := h3.mem_iff.1 h
    rw [faceNodes, List.mem_filter, List.mem_range, hlen] at this
    exact this.1
  have hfl : face.length = r.length := by rw [← h2.length_eq, List.length_map]
  have hcc : cornerCount r.length ≤ r.length := by
    have : r.length = (faceNodes (shape.positions k.count) l).length := h3.length_eq
    have hall : ∀ l ∈ shape.planes, cornerCount (faceNodes (shape.positions k.count) l).length
        ≤ (faceNodes (shape.positions k.count) l).length := by
      cases k <;> simp only [shapeOf, reduceCtorEq] at hk <;> cases hk <;> decide +kernel
    rw [this]
    exact hall l hl
  intro i hi q hq
  rw [hfl] at hi ⊢
  obtain ⟨c, hcl, hcq⟩ := List.getElem_of_mem hq
  have hq' : q = cell.getD c 0 := by
    rw [← hcq, List.getD_eq_getElem?_getD, List.getElem?_eq_getElem hcl]; rfl
  have hpos : 0 < cornerCount r.length := by unfold cornerCount; split <;> omega
  have hget : ∀ j, j < r.length →
      (r.map (cell.getD · 0)).getD j 0 = cell.getD (r.getD j 0) 0 ∧ r.getD j 0 < k.count := by
    intro j hj
    constructor
    · simp [List.getD_eq_getElem?_getD, List.getElem?_map, List.getElem?_eq_getElem hj]
    · apply hr
      rw [List.getD_eq_getElem?_getD, List.getElem?_eq_getElem hj]
      exact List.getElem_mem hj
  have hmod : ∀ j, j % cornerCount r.length < r.length :=
    fun j => lt_of_lt_of_le (Nat.mod_lt _ hpos) hcc
  have hi' : i < r.length := by omega
  have ht := h4.outward i hi c (by rw [hlen, ← hn]; exact hcl)
  have hmem : q ∈ face ↔ c ∈ r := by
    rw [← h2.mem_iff, List.mem_map, hq']
    constructor
    · rintro ⟨a, ha, hac⟩
      rwa [← number_inj hc (by rw [hn]; exact hr a ha) hcl hac]
    · exact fun h => ⟨c, h, rfl⟩
  simp only [Nat.mod_eq_of_lt hi] at ht
  simp only
  rw [(hget i hi').1, (hget _ (hmod (i + 1))).1, (hget _ (hmod (i + 2))).1, hq',
    hx _ (hget i hi').2, hx _ (hget _ (hmod (i + 1))).2, hx _ (hget _ (hmod (i + 2))).2,
    hx _ (by rw [← hn]; exact hcl), realTriple_image, ← hq']
  by_cases hm : c ∈ r
  · rw [if_pos (hmem.2 hm)]
    rw [if_pos hm] at ht
    rw [ht]; simp
  · rw [if_neg fun h => hm (hmem.1 h)]
    rw [if_neg hm] at ht
    have : ((triple ((shape.positions k.count).getD (r.getD i 0) (0, 0, 0))
      ((shape.positions k.count).getD (r.getD ((i + 1) % cornerCount r.length) 0) (0, 0, 0))
      ((shape.positions k.count).getD (r.getD ((i + 2) % cornerCount r.length) 0) (0, 0, 0))
      ((shape.positions k.count).getD c (0, 0, 0)) : ℤ) : ℝ) < 0 := by exact_mod_cast ht
    exact mul_neg_of_pos_of_neg hA this

/-- Hypotheses met: the standard tetrahedron with nodes numbered 7, 3, 9, 5. -/
example : ∃ x : Nat → Fin 3 → ℝ, ∀ c < Kind.count .tetrahedron4,
    x ([7, 3, 9, 5].getD c 0) = image 1 0 ((Spec.SortNodes.Shape.tetrahedron.positions 4).getD c (0, 0, 0)) := by
  refine ⟨fun v => image 1 0 ((Spec.SortNodes.Shape.tetrahedron.positions 4).getD
    ([7, 3, 9, 5].idxOf v) (0, 0, 0)), fun c hc => ?_⟩
  have : [7, 3, 9, 5].idxOf ([7, 3, 9, 5].getD c 0) = c := by
    revert c; decide
  simp only [this]

example : sortNodes .tetrahedron4 [7, 3, 9, 5] [9, 5, 3] = some [3, 9, 5] := by decide +kernel

end MiniCFD.SortNodes
