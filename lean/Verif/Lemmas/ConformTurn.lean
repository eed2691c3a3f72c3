import Verif.Lemmas.ConformSide

/-! # Surfaces do not depend on the corner where the listing starts -/

set_option linter.unusedSimpArgs false
set_option linter.unnecessarySeqFocus false

namespace MiniCFD.Conform

open MiniCFD.Shape MiniCFD.Spec.Conform

/-- The functions of the eight-node quadrangle. -/
theorem quad8_shapes (p : Point ℝ 2) (i : Fin 8) : (quadrangle8 ℝ).shapes p i =
    ![(1 - p 0) * (1 - p 1) * (-p 0 - p 1 - 1) / 4, (1 + p 0) * (1 - p 1) * (p 0 - p 1 - 1) / 4,
      (1 + p 0) * (1 + p 1) * (p 0 + p 1 - 1) / 4, (1 - p 0) * (1 + p 1) * (-p 0 + p 1 - 1) / 4,
      (1 - p 0 * p 0) * (1 - p 1) / 2, (1 + p 0) * (1 - p 1 * p 1) / 2, (1 - p 0 * p 0) * (1 + p 1) / 2,
      (1 - p 0) * (1 - p 1 * p 1) / 2] i := by
  refine Fin.addCases (m := 4) (n := 4) (fun a => ?_) (fun b => ?_) i
  · simp only [quadrangle8, Shape.enrich, Fin.append_left, reduce_eq]
    fin_cases a <;> expand [quadrangle4, quadrangle8Nodes, quadrangle8New,
      Fin.sum_univ_one, Fin.reduceCastAdd, smul_eq_mul] <;> ring
  · simp only [quadrangle8, Shape.enrich, Fin.append_right]
    fin_cases b <;> expand [quadrangle8Nodes, quadrangle8New, Fin.reduceNatAdd] <;> ring

/-- A listing of the nodes by `f` is undone by a map of the reference face. -/
def Turns (m : Nat) (F : Element ℝ 2 m) (f : Nat → Nat) : Prop :=
  ∃ (A : Point ℝ 2 → Point ℝ 2) (σ : Fin m → Fin m), (∀ j, (σ j).val = f j) ∧ (∀ p, InFace m p → InFace m (A p)) ∧
    (∀ q, InFace m q → ∃ p, InFace m p ∧ A p = q) ∧ Function.Bijective σ ∧
    ∀ p j, F.shapes (A p) j = F.shapes p (σ j)

theorem turns_surface {m : Nat} {F : Element ℝ 2 m} (hF : surface m = some F) :
    Turns m F (rotate m) ∧ Turns m F (reverse m) := by
  have tri : ∀ m, (m = 3 ∨ m = 6) → ∀ p : Point ℝ 2, InFace m p → InFace m ![p 1, 1 - p 0 - p 1] := by
    intro m hm p h
    rw [InFace, if_pos hm] at h ⊢
    obtain ⟨h0, h1, h2⟩ := h
    refine ⟨?_, ?_, ?_⟩ <;> expand [] <;> linarith
  have tri' : ∀ m, (m = 3 ∨ m = 6) → ∀ p : Point ℝ 2, InFace m p → InFace m ![p 0, 1 - p 0 - p 1] := by
    intro m hm p h
    rw [InFace, if_pos hm] at h ⊢
    obtain ⟨h0, h1, h2⟩ := h
    refine ⟨?_, ?_, ?_⟩ <;> expand [] <;> linarith
  have quad : ∀ m, ¬ (m = 3 ∨ m = 6) → ∀ p : Point ℝ 2, InFace m p → InFace m ![p 1, -p 0] := by
    intro m hm p h
    rw [InFace, if_neg hm] at h ⊢
    obtain ⟨h0, h0'⟩ := h 0
    obtain ⟨h1, h1'⟩ := h 1
    refine all2 ⟨?_, ?_⟩ ⟨?_, ?_⟩ <;> expand [] <;> linarith
  have quad' : ∀ m, ¬ (m = 3 ∨ m = 6) → ∀ p : Point ℝ 2, InFace m p → InFace m ![p 1, p 0] := by
    intro m hm p h
    rw [InFace, if_neg hm] at h ⊢
    exact all2 (h 1) (h 0)
  have inv : ∀ p : Point ℝ 2, ![(![1 - p 0 - p 1, p 0] : Point ℝ 2) 1,
      1 - (![1 - p 0 - p 1, p 0] : Point ℝ 2) 0 - (![1 - p 0 - p 1, p 0] : Point ℝ 2) 1] = p := by
    intro p
    funext i; fin_cases i <;> expand [] <;> ring
  have inv' : ∀ p : Point ℝ 2, ![(![p 0, 1 - p 0 - p 1] : Point ℝ 2) 0,
      1 - (![p 0, 1 - p 0 - p 1] : Point ℝ 2) 0 - (![p 0, 1 - p 0 - p 1] : Point ℝ 2) 1] = p := by
    intro p
    funext i; fin_cases i <;> expand [] <;> ring
  have back : ∀ m, (m = 3 ∨ m = 6) → ∀ p : Point ℝ 2, InFace m p → InFace m ![1 - p 0 - p 1, p 0] := by
    intro m hm p h
    rw [InFace, if_pos hm] at h ⊢
    obtain ⟨h0, h1, h2⟩ := h
    refine ⟨?_, ?_, ?_⟩ <;> expand [] <;> linarith
  have qinv : ∀ p : Point ℝ 2, ![(![-p 1, p 0] : Point ℝ 2) 1, -(![-p 1, p 0] : Point ℝ 2) 0] = p := by
    intro p
    funext i; fin_cases i <;> expand [neg_neg]
  have qback : ∀ m, ¬ (m = 3 ∨ m = 6) → ∀ p : Point ℝ 2, InFace m p → InFace m ![-p 1, p 0] := by
    intro m hm p h
    rw [InFace, if_neg hm] at h ⊢
    obtain ⟨h0, h0'⟩ := h 0
    obtain ⟨h1, h1'⟩ := h 1
    refine all2 ⟨?_, ?_⟩ ⟨?_, ?_⟩ <;> expand [] <;> linarith
  unfold surface at hF
  split at hF <;> cases hF
  · have hm : (3 : Nat) = 3 ∨ (3 : Nat) = 6 := by decide
    refine ⟨⟨fun p => ![p 1, 1 - p 0 - p 1], ![1, 2, 0], by decide, tri _ hm,
      fun q hq => ⟨_, back _ hm q hq, inv q⟩, by decide, fun p j => ?_⟩,
      ⟨fun p => ![p 0, 1 - p 0 - p 1], ![0, 2, 1], by decide, tri' _ hm,
      fun q hq => ⟨_, tri' _ hm q hq, inv' q⟩, by decide, fun p j => ?_⟩⟩ <;>
    fin_cases j <;> expand [triangle3] <;> ring
  · have hm : ¬ ((4 : Nat) = 3 ∨ (4 : Nat) = 6) := by decide
    refine ⟨⟨fun p => ![p 1, -p 0], ![1, 2, 3, 0], by decide, quad _ hm,
      fun q hq => ⟨_, qback _ hm q hq, qinv q⟩, by decide, fun p j => ?_⟩,
      ⟨fun p => ![p 1, p 0], ![0, 3, 2, 1], by decide, quad' _ hm,
      fun q hq => ⟨_, quad' _ hm q hq, pair q⟩, by decide, fun p j => ?_⟩⟩ <;>
    fin_cases j <;> expand [quadrangle4] <;> ring
  · have hm : (6 : Nat) = 3 ∨ (6 : Nat) = 6 := by decide
    refine ⟨⟨fun p => ![p 1, 1 - p 0 - p 1], ![1, 2, 0, 4, 5, 3], by decide, tri _ hm,
      fun q hq => ⟨_, back _ hm q hq, inv q⟩, by decide, fun p j => ?_⟩,
      ⟨fun p => ![p 0, 1 - p 0 - p 1], ![0, 2, 1, 5, 4, 3], by decide, tri' _ hm,
      fun q hq => ⟨_, tri' _ hm q hq, inv' q⟩, by decide, fun p j => ?_⟩⟩ <;>
    fin_cases j <;> expand [triangle6] <;> ring
  · have hm : ¬ ((8 : Nat) = 3 ∨ (8 : Nat) = 6) := by decide
    refine ⟨⟨fun p => ![p 1, -p 0], ![1, 2, 3, 0, 5, 6, 7, 4], by decide, quad _ hm,
      fun q hq => ⟨_, qback _ hm q hq, qinv q⟩, by decide, fun p j => ?_⟩,
      ⟨fun p => ![p 1, p 0], ![0, 3, 2, 1, 7, 6, 5, 4], by decide, quad' _ hm,
      fun q hq => ⟨_, quad' _ hm q hq, pair q⟩, by decide, fun p j => ?_⟩⟩ <;>
    simp only [quad8_shapes] <;> fin_cases j <;> expand [] <;> ring
  · have hm : ¬ ((9 : Nat) = 3 ∨ (9 : Nat) = 6) := by decide
    refine ⟨⟨fun p => ![p 1, -p 0], ![1, 2, 3, 0, 5, 6, 7, 4, 8], by decide, quad _ hm,
      fun q hq => ⟨_, qback _ hm q hq, qinv q⟩, by decide, fun p j => ?_⟩,
      ⟨fun p => ![p 1, p 0], ![0, 3, 2, 1, 7, 6, 5, 4, 8], by decide, quad' _ hm,
      fun q hq => ⟨_, quad' _ hm q hq, pair q⟩, by decide, fun p j => ?_⟩⟩ <;>
    simp only [quad9_shapes] <;> fin_cases j <;> expand [] <;> ring

/-- The surface on a list of nodes, as a set of points. -/
def patch {m : Nat} (F : Element ℝ 2 m) {D : Nat} (x : Nat → Point ℝ D) (r : List Nat) : Set (Point ℝ D) :=
  localToGlobal F (fun j => x (r.getD j 0)) '' {q | InFace m q}

theorem patch_reindex {m : Nat} {F : Element ℝ 2 m} {f : Nat → Nat} (h : Turns m F f) {D : Nat}
    (x : Nat → Point ℝ D) {r : List Nat} (hr : r.length = m) : patch F x (reindex f r) = patch F x r := by
  obtain ⟨A, σ, hσ, hin, hon, hb, hA⟩ := h
  have key : ∀ p, localToGlobal F (fun j => x ((reindex f r).getD j 0)) (A p)
      = localToGlobal F (fun j => x (r.getD j 0)) p := by
    intro p
    funext c
    simp only [localToGlobal, hA]
    have hj : ∀ j : Fin m, (reindex f r).getD j 0 = r.getD (σ j) 0 := by
      intro j
      have hlt : (j : Nat) < r.length := hr ▸ j.isLt
      rw [reindex, List.getD_eq_getElem?_getD, List.getElem?_map, List.getElem?_range hlt, Option.map_some,
        Option.getD_some, hσ]
    simp only [hj]
    exact Equiv.sum_comp (Equiv.ofBijective σ hb) fun i => x (r.getD i 0) c * F.shapes p i
  unfold patch
  ext y
  constructor
  · rintro ⟨q, hq, rfl⟩
    obtain ⟨p, hp, rfl⟩ := hon q hq
    exact ⟨p, hp, (key p).symm⟩
  · rintro ⟨p, hp, rfl⟩
    exact ⟨A p, hin p hp, key p⟩

theorem reindex_length (f : Nat → Nat) (r : List Nat) : (reindex f r).length = r.length := by
  rw [reindex, List.length_map, List.length_range]

theorem same_length {r r' : List Nat} (h : Same r r') : r'.length = r.length := by
  induction h with
  | refl => rfl
  | rotate _ ih => rw [reindex_length, ih]
  | reverse _ ih => rw [reindex_length, ih]

theorem patch_same {m : Nat} {F : Element ℝ 2 m} (hF : surface m = some F) {D : Nat} (x : Nat → Point ℝ D)
    {r r' : List Nat} (h : Same r r') (hr : r.length = m) : patch F x r' = patch F x r := by
  induction h with
  | refl => rfl
  | rotate h ih =>
    have hl := (same_length h).trans hr
    rw [patch_reindex (hl ▸ (turns_surface hF).1) x hl, ih]
  | reverse h ih =>
    have hl := (same_length h).trans hr
    rw [patch_reindex (hl ▸ (turns_surface hF).2) x hl, ih]

end MiniCFD.Conform
