import Verif.Lemmas.ConformTurn

/-!
# C67 and C68: faces and sides of cells
-/

namespace MiniCFD.Conform

open MiniCFD.Shape MiniCFD.Spec.Conform MiniCFD.Spec.SortNodes

/-! ### The places of local coordinates are right -/

theorem place_embed (shape : Spec.SortNodes.Shape) (q : Point ℚ 3) :
    place shape (embed q : Point ℝ 3) = embed (place shape q) := by
  funext c
  cases shape <;> fin_cases c <;>
    simp only [place, embed, Fin.zero_eta, Fin.mk_one, Fin.reduceFinMk, Fin.isValue, Matrix.cons_val] <;>
    push_cast <;> ring

/-- The position of a node in the standard cell. -/
def standard (shape : Spec.SortNodes.Shape) (n : Nat) (i : Fin n) : Point ℚ 3 :=
  let p := (shape.positions n).getD i (0, 0, 0)
  ![p.1, p.2.1, p.2.2]

theorem nodes_place {k : Kind} {shape : Spec.SortNodes.Shape} (hk : SortNodes.shapeOf k = some shape)
    {e : Element ℝ 3 k.count} (he : Cell.cell k = some e) :
    ∀ i, standard shape k.count i = place shape (e.nodes i) := by
  cases k <;> simp only [SortNodes.shapeOf, reduceCtorEq] at hk <;> cases hk <;> simp only [Cell.cell] at he <;>
    cases he <;> decide +kernel

/-- The places as affine images of the straight cells. -/
noncomputable def frameOf : Spec.SortNodes.Shape → (Fin 3 → Fin 3 → ℝ) × (Fin 3 → ℝ)
  | .tetrahedron => (![![0, 4, 0], ![0, 0, 4], ![-4, -4, -4]], ![0, 0, 4])
  | .pyramid => (![![4, 0, 0], ![0, 4, 0], ![0, 0, 2]], ![0, 0, 2])
  | .wedge => (![![0, 4, 0], ![-4, -4, 0], ![0, 0, 2]], ![0, 4, 2])
  | .hexahedron => (![![4, 0, 0], ![0, 4, 0], ![0, 0, 4]], 0)

theorem place_affine {shape : Spec.SortNodes.Shape} (h : shape ≠ .pyramid) (p : Point ℝ 3) :
    place shape p = Spec.Shape.affine (frameOf shape).1 (frameOf shape).2 p := by
  funext c
  cases shape
  case pyramid => exact absurd rfl h
  all_goals
    fin_cases c <;> simp only [place, Spec.Shape.affine, frameOf, Fin.sum_univ_three, Fin.zero_eta, Fin.mk_one,
      Fin.reduceFinMk, Fin.isValue, Matrix.cons_val, Pi.zero_apply] <;> ring

theorem place_pyramid (p : Point ℝ 3) : place .pyramid p
    = Spec.Shape.affine (frameOf .pyramid).1 (frameOf .pyramid).2 (Spec.Shape.collapse p) := by
  funext c
  fin_cases c <;> simp only [place, Spec.Shape.affine, Spec.Shape.collapse, frameOf, Fin.sum_univ_three,
    Fin.zero_eta, Fin.mk_one, Fin.reduceFinMk, Fin.isValue, Matrix.cons_val, Fin.reduceEq, reduceIte] <;> ring

/-- The map of local coordinates to the standard cell used in the statements is what `LocalToGlobal` does when
the nodes are at their standard positions. -/
theorem place_standard {k : Kind} {shape : Spec.SortNodes.Shape} (hk : SortNodes.shapeOf k = some shape)
    {e : Element ℝ 3 k.count} (he : Cell.cell k = some e) (p : Point ℝ 3) :
    localToGlobal e (fun i => embed (standard shape k.count i)) p = place shape p := by
  have hn := nodes_place hk he
  have hx : (fun i => (embed (standard shape k.count i) : Point ℝ 3)) = fun i => place shape (embed (e.nodes i)) := by
    funext i
    rw [hn i, place_embed]
  rw [hx]
  by_cases hp : shape = .pyramid
  · subst hp
    rw [place_pyramid]
    cases k <;> simp only [SortNodes.shapeOf, reduceCtorEq, Option.some.injEq] at hk <;>
      simp only [Cell.cell] at he <;> cases he
    · exact local_to_global_affine .pyramid5 _ _ _ (fun i => place_pyramid _) p
    · exact local_to_global_affine .pyramid13 _ _ _ (fun i => place_pyramid _) p
    · exact local_to_global_affine .pyramid14 _ _ _ (fun i => place_pyramid _) p
  · rw [place_affine hp]
    refine Cell.local_to_global_straight ?_ he _ _ _ (fun i => place_affine hp _) p
    cases k <;> simp only [SortNodes.shapeOf, reduceCtorEq, Option.some.injEq] at hk <;>
      first | exact absurd hk.symm hp | exact fun h => h

/-! ### Sorting -/

theorem sort_any {k : Kind} {shape : Spec.SortNodes.Shape} (hk : SortNodes.shapeOf k = some shape)
    {cell : List Nat} (hn : cell.length = k.count) (hc : cell.Nodup) {l : Int × Int × Int × Int}
    (hl : l ∈ shape.planes) {face : List Nat}
    (hf : face.Perm ((faceNodes (shape.positions k.count) l).map (cell.getD · 0))) :
    SortNodes.sortNodes k cell face = (SortNodes.sortNodes k (List.range k.count)
      (faceNodes (shape.positions k.count) l)).map (List.map (cell.getD · 0)) := by
  obtain ⟨hlen, hch⟩ := SortNodes.checked k shape hk
  obtain ⟨-, h4, -⟩ := hch l hl
  have hs : ∀ c ∈ faceNodes (shape.positions k.count) l, c < cell.length := by
    intro c h
    rw [faceNodes, List.mem_filter, List.mem_range, hlen, ← hn] at h
    exact h.1
  have := SortNodes.sortNodes_natural k hc hs hf h4
  rw [this, hn]
  rfl

theorem getD_ofFn {m : Nat} (f : Fin m → Nat) (j : Fin m) : (List.ofFn f).getD j 0 = f j := by
  rw [List.getD_eq_getElem?_getD, List.getElem?_ofFn, dif_pos j.isLt]
  rfl

/-! ### C67 -/

/-- **C67.** For every class of cells, every side of the cell and the nodes of that side in any order: the
surface element built on the nodes as `SortNodesOnFace` orders them traces the side of the cell.  There
are coordinates `ψ` of the side, which depend on the class only and cover the reference face, such that at every
point of the side, and for all positions of the nodes, the cell and the surface give the same point. -/
theorem face_traces_side {k : Kind} {shape : Spec.SortNodes.Shape} (hk : SortNodes.shapeOf k = some shape)
    {e : Element ℝ 3 k.count} (he : Cell.cell k = some e) {l : Int × Int × Int × Int} (hl : l ∈ shape.planes) :
    ∃ ψ : Point ℝ 3 → Point ℝ 2,
      (∀ p, InCell shape p → height shape l p = 0 →
        InFace (faceNodes (shape.positions k.count) l).length (ψ p)) ∧
      (∀ q, InFace (faceNodes (shape.positions k.count) l).length q →
        ∃ p, InCell shape p ∧ height shape l p = 0 ∧ ψ p = q) ∧
      ∀ (cell face : List Nat), cell.length = k.count → cell.Nodup →
        face.Perm ((faceNodes (shape.positions k.count) l).map (cell.getD · 0)) →
        ∃ sorted F, SortNodes.sortNodes k cell face = some sorted ∧ surface sorted.length = some F ∧
          ∀ {D : Nat} (x : Nat → Point ℝ D) (p : Point ℝ 3), height shape l p = 0 →
            localToGlobal e (fun i => x (cell.getD i 0)) p
              = localToGlobal F (fun j => x (sorted.getD j 0)) (ψ p) := by
  obtain ⟨m, F, ρ, s, hF, hs, hm, hsort⟩ := facet hk he hl
  have hlen : (faceNodes (shape.positions k.count) l).length = m := by
    obtain ⟨-, hch⟩ := SortNodes.checked k shape hk
    obtain ⟨-, -, r, hr, hp, -⟩ := hch l hl
    rw [Option.mem_def, hsort] at hr
    rw [← hp.length_eq, ← Option.some.inj hr, List.length_ofFn]
  refine ⟨s.ψ, ?_, ?_, ?_⟩
  · rw [hlen]
    intro p hp h
    rcases hs.plane p h with h | ⟨-, -, q, -, -, -, h⟩
    · exact hs.maps p hp h
    · exact h
  · rw [hlen]
    intro q hq
    obtain ⟨p, h1, h2, h3⟩ := hs.onto q hq
    exact ⟨p, h1, hs.on p h2, h3⟩
  · intro cell face hn hc hf
    have hso := sort_any hk hn hc hl hf
    rw [hsort, Option.map_some, List.map_ofFn] at hso
    have hlm : (List.ofFn ((cell.getD · 0) ∘ fun j => (ρ j).val)).length = m := List.length_ofFn
    generalize hsd : List.ofFn ((cell.getD · 0) ∘ fun j => (ρ j).val) = sorted at hso hlm
    subst hlm
    refine ⟨sorted, F, hso, hF, fun x p hp => ?_⟩
    have hx : (fun j : Fin sorted.length => x (sorted.getD j 0)) = fun j => x (cell.getD (ρ j) 0) := by
      funext j
      have := getD_ofFn ((cell.getD · 0) ∘ fun j => (ρ j).val) j
      rw [hsd] at this
      rw [this]
      rfl
    rw [hx]
    rcases hs.plane p hp with h | ⟨hpy, hz, q, hq, hqz, hψ, -⟩
    · exact hm.trace (fun i => x (cell.getD i 0)) h
    · subst hpy
      rw [← hψ, ← hm.trace (fun i => x (cell.getD i 0)) hq]
      unfold localToGlobal
      rw [apex hk he hz hqz]

/-- **C67.** As sets of points: the image of the reference face is the side of the cell. -/
theorem face_is_side {k : Kind} {shape : Spec.SortNodes.Shape} (hk : SortNodes.shapeOf k = some shape)
    {e : Element ℝ 3 k.count} (he : Cell.cell k = some e) {l : Int × Int × Int × Int} (hl : l ∈ shape.planes)
    {cell face : List Nat} (hn : cell.length = k.count) (hc : cell.Nodup)
    (hf : face.Perm ((faceNodes (shape.positions k.count) l).map (cell.getD · 0))) :
    ∃ sorted F, SortNodes.sortNodes k cell face = some sorted ∧ surface sorted.length = some F ∧
      ∀ {D : Nat} (x : Nat → Point ℝ D),
        localToGlobal e (fun i => x (cell.getD i 0)) '' {p | InCell shape p ∧ height shape l p = 0}
          = localToGlobal F (fun j => x (sorted.getD j 0)) '' {q | InFace sorted.length q} := by
  obtain ⟨ψ, h1, h2, h3⟩ := face_traces_side hk he hl
  obtain ⟨sorted, F, hs, hF, h⟩ := h3 cell face hn hc hf
  obtain ⟨r, hr, hp, -⟩ := SortNodes.sort_proper k shape hk cell hn hc l hl face hf
  have hlen : sorted.length = (faceNodes (shape.positions k.count) l).length := by
    rw [hs] at hr
    rw [Option.some.inj hr, hp.length_eq, hf.length_eq, List.length_map]
  refine ⟨sorted, F, hs, hF, fun x => ?_⟩
  ext y
  constructor
  · rintro ⟨p, ⟨hp, h0⟩, rfl⟩
    exact ⟨ψ p, by rw [Set.mem_setOf_eq, hlen]; exact h1 p hp h0, (h x p h0).symm⟩
  · rintro ⟨q, hq, rfl⟩
    rw [Set.mem_setOf_eq, hlen] at hq
    obtain ⟨p, hp, h0, rfl⟩ := h2 q hq
    exact ⟨p, ⟨hp, h0⟩, h x p h0⟩

/-- **C67.** No gap and no overlap between neighbours: two cells of any classes which list a side as the same
polygon, from any corner and in either sense, have the same set of points as that side, wherever the nodes are. -/
theorem shared_side {k k' : Kind} {shape shape' : Spec.SortNodes.Shape} (hk : SortNodes.shapeOf k = some shape)
    (hk' : SortNodes.shapeOf k' = some shape') {e : Element ℝ 3 k.count} (he : Cell.cell k = some e)
    {e' : Element ℝ 3 k'.count} (he' : Cell.cell k' = some e') {l l' : Int × Int × Int × Int}
    (hl : l ∈ shape.planes) (hl' : l' ∈ shape'.planes) {cell cell' face face' : List Nat}
    (hn : cell.length = k.count) (hn' : cell'.length = k'.count) (hc : cell.Nodup) (hc' : cell'.Nodup)
    (hf : face.Perm ((faceNodes (shape.positions k.count) l).map (cell.getD · 0)))
    (hf' : face'.Perm ((faceNodes (shape'.positions k'.count) l').map (cell'.getD · 0)))
    {sorted sorted' : List Nat} (hs : SortNodes.sortNodes k cell face = some sorted)
    (hs' : SortNodes.sortNodes k' cell' face' = some sorted') (hsame : Same sorted sorted') {D : Nat}
    (x : Nat → Point ℝ D) :
    localToGlobal e (fun i => x (cell.getD i 0)) '' {p | InCell shape p ∧ height shape l p = 0}
      = localToGlobal e' (fun i => x (cell'.getD i 0)) '' {p | InCell shape' p ∧ height shape' l' p = 0} := by
  obtain ⟨r, F, hr, hF, h⟩ := face_is_side hk he hl hn hc hf
  obtain ⟨r', F', hr', hF', h'⟩ := face_is_side hk' he' hl' hn' hc' hf'
  rw [hs] at hr
  cases hr
  rw [hs'] at hr'
  cases hr'
  rw [h x, h' x]
  have hlen := same_length hsame
  have key : ∀ {m : Nat} (F' : Element ℝ 2 m) (_ : surface m = some F') (_ : m = sorted.length),
      localToGlobal F' (fun j => x (sorted'.getD j 0)) '' {q | InFace m q}
        = localToGlobal F (fun j => x (sorted.getD j 0)) '' {q | InFace sorted.length q} := by
    intro m F' hF' hm
    subst hm
    rw [hF] at hF'
    cases hF'
    exact patch_same hF x hsame rfl
  exact (key F' hF' hlen).symm

/-- Hypotheses met: a hexahedron on the nodes 1 to 8 and the wedge glued to its side `x = 1`. -/
example : SortNodes.sortNodes .hexahedron8 [1, 2, 3, 4, 5, 6, 7, 8] [2, 3, 6, 7] = some [2, 3, 7, 6] ∧
    SortNodes.sortNodes .wedge6 [3, 2, 9, 7, 6, 10] [2, 3, 6, 7] = some [3, 2, 6, 7] ∧
    Same [2, 3, 7, 6] [3, 2, 6, 7] :=
  ⟨by decide, by decide, .rotate (.rotate (.rotate (.reverse .refl)))⟩

/-- Hypotheses met: a 13-node pyramid with nodes numbered from 100, and its triangle on `x + z = 4` in some
order, whose last three nodes are middles of edges. -/
example : ∃ ψ : Point ℝ 3 → Point ℝ 2, ∃ sorted F,
    SortNodes.sortNodes .pyramid13 (List.range' 100 13) [110, 111, 104, 101, 102, 106] = some sorted ∧
    surface sorted.length = some F ∧ ∀ {D : Nat} (x : Nat → Point ℝ D) (p : Point ℝ 3),
      height .pyramid (-1, 0, -1, 4) p = 0 →
      localToGlobal (pyramid13 ℝ) (fun i => x ((List.range' 100 13).getD i 0)) p
        = localToGlobal F (fun j => x (sorted.getD j 0)) (ψ p) := by
  obtain ⟨ψ, -, -, h⟩ := face_traces_side (k := .pyramid13) (shape := .pyramid) rfl rfl
    (l := (-1, 0, -1, 4)) (by decide)
  exact ⟨ψ, h _ _ rfl (by decide) (by decide +kernel)⟩

example : height .pyramid (-1, 0, -1, 4) ![1, 1 / 3, -1 / 2] = 0 := by
  simp only [height, place, Fin.isValue, Matrix.cons_val]
  norm_num

/-! ### C68 -/

/-- **C68.** The normal vector of the sorted face points out of the cell, whatever the positions of the nodes
are: at every point of the side where the Jacobian of the cell has the orientation of the standard
cell, the normal makes an obtuse angle with every direction that leads into the cell. -/
theorem normal_outward {k : Kind} {shape : Spec.SortNodes.Shape} (hk : SortNodes.shapeOf k = some shape)
    {e : Element ℝ 3 k.count} (he : Cell.cell k = some e) {l : Int × Int × Int × Int} (hl : l ∈ shape.planes) :
    ∃ ψ : Point ℝ 3 → Point ℝ 2,
      ∀ (cell face : List Nat), cell.length = k.count → cell.Nodup →
        face.Perm ((faceNodes (shape.positions k.count) l).map (cell.getD · 0)) →
        ∃ sorted F, SortNodes.sortNodes k cell face = some sorted ∧ surface sorted.length = some F ∧
          ∀ (x : Nat → Point ℝ 3) (p : Point ℝ 3), InCell shape p → height shape l p = 0 →
            0 < hand shape * (Matrix.of (jacobian e (fun i => x (cell.getD i 0)) p)).det →
            localToGlobal e (fun i => x (cell.getD i 0)) p
              = localToGlobal F (fun j => x (sorted.getD j 0)) (ψ p) ∧
            ∀ d, Inward shape l p d →
              (Cell.normalFrame F (fun j => x (sorted.getD j 0)) (ψ p)).1
                ⬝ᵥ ∑ r, d r • jacobian e (fun i => x (cell.getD i 0)) p r < 0 := by
  obtain ⟨m, F, ρ, s, hF, hs, hm, hsort⟩ := facet hk he hl
  refine ⟨s.ψ, ?_⟩
  intro cell face hn hc hf
  have hso := sort_any hk hn hc hl hf
  rw [hsort, Option.map_some, List.map_ofFn] at hso
  have hlm : (List.ofFn ((cell.getD · 0) ∘ fun j => (ρ j).val)).length = m := List.length_ofFn
  generalize hsd : List.ofFn ((cell.getD · 0) ∘ fun j => (ρ j).val) = sorted at hso hlm
  subst hlm
  refine ⟨sorted, F, hso, hF, fun x p hp h0 hdet => ?_⟩
  have hx : (fun j : Fin sorted.length => x (sorted.getD j 0)) = fun j => x (cell.getD (ρ j) 0) := by
    funext j
    have := getD_ofFn ((cell.getD · 0) ∘ fun j => (ρ j).val) j
    rw [hsd] at this
    rw [this]
    rfl
  rw [hx]
  have hz : shape = .pyramid → p 2 ≠ 1 := by
    rintro rfl h
    rw [apex_singular hk he _ h, mul_zero] at hdet
    exact lt_irrefl _ hdet
  have hon : s.on p := by
    rcases hs.plane p h0 with h | ⟨hpy, h, -⟩
    · exact h
    · exact absurd h (hz hpy)
  refine ⟨hm.trace (fun i => x (cell.getD i 0)) hon, fun d hd => ?_⟩
  have hsign := hs.sign p hp hon d hd hz
  have hnormal := hm.normal (fun i => x (cell.getD i 0)) hon d
  set N := crossProduct (jacobian F (fun j => x (cell.getD (ρ j) 0)) (s.ψ p) 0)
    (jacobian F (fun j => x (cell.getD (ρ j) 0)) (s.ψ p) 1) with hN
  set w := ∑ r, d r • jacobian e (fun i => x (cell.getD i 0)) p r
  set J := (Matrix.of (jacobian e (fun i => x (cell.getD i 0)) p)).det
  have h1 : det2 (s.D p) * det2 (s.D p) * (N ⬝ᵥ w) * (hand shape * hand shape)
      = (hand shape * det3 (s.T 0) (s.T 1) d * det2 (s.D p)) * (hand shape * J) := by
    linear_combination (det2 (s.D p) * (hand shape * hand shape)) * hnormal
  have h2 : N ⬝ᵥ w < 0 := by
    by_contra h
    push Not at h
    have : 0 ≤ det2 (s.D p) * det2 (s.D p) * (N ⬝ᵥ w) * (hand shape * hand shape) :=
      mul_nonneg (mul_nonneg (mul_self_nonneg _) h) (mul_self_nonneg _)
    rw [h1] at this
    exact absurd (mul_neg_of_neg_of_pos hsign hdet) (not_lt.2 this)
  have hN0 : N ≠ 0 := by
    intro h
    rw [h, zero_dotProduct] at h2
    exact lt_irrefl _ h2
  change Cell.normalized N ⬝ᵥ w < 0
  rw [Cell.normalized_eq hN0, smul_dotProduct, smul_eq_mul]
  exact mul_neg_of_pos_of_neg (inv_pos.2 (Cell.norm_pos hN0)) h2

/-- The derivatives of the place. -/
noncomputable def slopes : Spec.SortNodes.Shape → Point ℝ 3 → Fin 3 → Point ℝ 3
  | .tetrahedron, _ => ![![0, 0, -4], ![4, 0, -4], ![0, 4, -4]]
  | .pyramid, p => ![![2 * (1 - p 2), 0, 0], ![0, 2 * (1 - p 2), 0], ![-2 * p 0, -2 * p 1, 2]]
  | .wedge, _ => ![![0, -4, 0], ![4, -4, 0], ![0, 0, 2]]
  | .hexahedron, _ => ![![4, 0, 0], ![0, 4, 0], ![0, 0, 4]]

theorem place_partial (shape : Spec.SortNodes.Shape) (p : Point ℝ 3) (j c : Fin 3) :
    Spec.Shape.HasPartial (fun q => place shape q c) j (slopes shape p j c) p := by
  have h : (fun s => place shape (Function.update p j s) c)
      = fun s => slopes shape p j c * s + (place shape p c - slopes shape p j c * p j) := by
    funext s
    cases shape <;> fin_cases j <;> fin_cases c <;>
      simp only [place, slopes, Fin.zero_eta, Fin.mk_one, Fin.reduceFinMk, Fin.isValue, Matrix.cons_val,
        Function.update_self, ne_eq, Fin.reduceEq, not_false_eq_true, Function.update_of_ne, one_ne_zero,
        zero_ne_one] <;> ring
  unfold Spec.Shape.HasPartial
  rw [h]
  have := ((hasDerivAt_id (p j)).const_mul (slopes shape p j c)).add_const
    (place shape p c - slopes shape p j c * p j)
  rw [mul_one] at this
  exact this

/-- At standard positions local coordinates have the stated orientation at every point, except the apex of a
pyramid. -/
theorem standard_hand {k : Kind} {shape : Spec.SortNodes.Shape} (hk : SortNodes.shapeOf k = some shape)
    {e : Element ℝ 3 k.count} (he : Cell.cell k = some e) (p : Point ℝ 3) (hz : shape = .pyramid → p 2 ≠ 1) :
    0 < hand shape * (Matrix.of (jacobian e (fun i => embed (standard shape k.count i)) p)).det := by
  have h : jacobian e (fun i => embed (standard shape k.count i)) p = slopes shape p := by
    funext j c
    have h1 := Cell.jacobian_partial_cell he (fun i => embed (standard shape k.count i)) p j c
    simp only [place_standard hk he] at h1
    exact h1.unique (place_partial shape p j c)
  rw [h]
  cases shape <;> simp only [slopes, hand, Matrix.det_fin_three, Matrix.of_apply, Matrix.cons_val, Fin.isValue]
  · norm_num
  · have : 0 < (1 - p 2) * (1 - p 2) := mul_self_pos.2 fun h => hz rfl (by linarith)
    nlinarith
  · norm_num
  · norm_num

/-- Hypotheses met: the standard 20-node hexahedron, its side `x = 1` at a point off its middle; the direction
`(-1, 1/2, 0)` leads into the cell. -/
example : Inward .hexahedron (-1, 0, 0, 4) ![1, 1 / 3, 1 / 5] ![-1, 1 / 2, 0] :=
  ⟨1, one_pos, fun t h _ => by
    simp only [height, place, Fin.isValue, Matrix.cons_val, Pi.add_apply, Pi.smul_apply, smul_eq_mul]
    push_cast
    linarith⟩

example : 0 < hand .hexahedron * (Matrix.of (jacobian (hexahedron20 ℝ)
    (fun i => embed (standard .hexahedron 20 i)) ![1, 1 / 3, 1 / 5])).det :=
  standard_hand (k := .hexahedron20) rfl rfl _ (fun h => by cases h)

end MiniCFD.Conform
