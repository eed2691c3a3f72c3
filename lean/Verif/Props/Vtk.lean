import Verif.Spec.Vtk
import Verif.Props.Shape
import Mathlib.Data.List.Forall2
import Mathlib.Tactic.FinCases
import Mathlib.Tactic.Linarith

/-! # C66: a VTK file shows every cell at its place; C50: the node tables -/

namespace MiniCFD.Vtk

open MiniCFD.Shape MiniCFD.Spec.Vtk

variable {G V : Type}

/-! ### What the writer collects -/

theorem countNodes_eq (t : CellType) : countNodes t = t.locals.length := by cases t <;> rfl

theorem fill_eq (locals : List (Point ℚ 3)) (cell : Cell G V) (s : State G V) :
    fill locals locals.length cell s = some ⟨s.types, s.coords ++ locals.map cell.map,
      s.values ++ locals.map cell.value⟩ := by
  have key : ∀ n ≤ locals.length, fill locals n cell s
      = some ⟨s.types, s.coords ++ (locals.take n).map cell.map,
        s.values ++ (locals.take n).map cell.value⟩ := by
    intro n hn
    induction n with
    | zero => simp [fill]
    | succ n ih =>
      unfold fill at ih ⊢
      rw [List.range_succ, List.foldlM_append, ih (by omega)]
      have h : n < locals.length := by omega
      simp only [Option.bind_eq_bind, Option.bind_some, List.foldlM_cons, List.foldlM_nil,
        List.getElem?_eq_getElem h, List.take_add_one, Option.toList_some, List.map_append, List.map_cons,
        List.map_nil, List.append_assoc]
      rfl
  have := key locals.length le_rfl
  rwa [List.take_length] at this

/-- A cell the writer supports. -/
def Supported (c : Cell G V) : Prop := (getCellType c.corners).isSome

/-- Its type. -/
def typeAt (c : Cell G V) : CellType := (getCellType c.corners).getD .tetrahedron4

theorem prepare_eq (s : State G V) (c : Cell G V) (h : Supported c) :
    prepare s c = some ⟨s.types ++ [typeAt c], s.coords ++ (typeAt c).locals.map c.map,
      s.values ++ (typeAt c).locals.map c.value⟩ := by
  obtain ⟨t, ht⟩ := Option.isSome_iff_exists.1 h
  simp only [prepare, typeAt, ht, Option.bind_eq_bind, Option.bind_some, Option.getD_some, countNodes_eq, fill_eq]

theorem collect_eq (cells : List (Cell G V)) (h : ∀ c ∈ cells, Supported c) (s : State G V) :
    cells.foldlM prepare s = some ⟨s.types ++ cells.map typeAt,
      s.coords ++ cells.flatMap fun c => (typeAt c).locals.map c.map,
      s.values ++ cells.flatMap fun c => (typeAt c).locals.map c.value⟩ := by
  induction cells generalizing s with
  | nil => simp
  | cons c cs ih =>
    rw [List.foldlM_cons, prepare_eq s c (h c (by simp))]
    simp only [Option.bind_eq_bind, Option.bind_some, List.map_cons, List.flatMap_cons]
    rw [ih fun d hd => h d (List.mem_cons_of_mem _ hd)]
    simp

/-! ### Reading -/

theorem flatMap_block {α β : Type*} (g : α → List β) (l : List α) (i : Nat) (hi : i < l.length) (j : Nat)
    (hj : j < (g l[i]).length) :
    (l.flatMap g)[((l.take i).map fun a => (g a).length).sum + j]? = some ((g l[i])[j]) := by
  induction l generalizing i with
  | nil => simp at hi
  | cons a l ih =>
    cases i with
    | zero =>
      simp only [List.getElem_cons_zero] at hj ⊢
      simp [List.flatMap_cons, List.getElem?_append_left hj, List.getElem?_eq_getElem hj]
    | succ i =>
      simp only [List.getElem_cons_succ] at hj ⊢
      simp only [List.flatMap_cons, List.take_succ_cons, List.map_cons, List.sum_cons]
      rw [List.getElem?_append_right (by omega)]
      rw [show (g a).length + ((l.take i).map fun a => (g a).length).sum + j - (g a).length
        = ((l.take i).map fun a => (g a).length).sum + j by omega]
      exact ih i (by simpa using hi) hj

theorem offsets_get (ts : List CellType) (off i : Nat) (hi : i < ts.length) :
    (offsets off ts)[i]? = some (off + ((ts.take (i + 1)).map countNodes).sum) := by
  induction ts generalizing off i with
  | nil => simp at hi
  | cons t ts ih =>
    cases i with
    | zero => simp [offsets]
    | succ i =>
      simp only [offsets, List.getElem?_cons_succ]
      rw [ih _ _ (by simpa using hi)]
      simp [Nat.add_assoc]

theorem mapM_of_forall₂ {α β : Type} {f : α → Option β} {l : List α} {r : List β}
    (h : List.Forall₂ (fun a b => f a = some b) l r) : l.mapM f = some r := by
  induction h with
  | nil => rfl
  | cons h _ ih => simp [List.mapM_cons, h, ih]

theorem mapM_map {α β : Type} {f : α → Option β} {r : α → β} (l : List α) (h : ∀ a ∈ l, f a = some (r a)) :
    l.mapM f = some (l.map r) := by
  induction l with
  | nil => rfl
  | cons a l ih => simp [List.mapM_cons, h a (by simp), ih fun b hb => h b (List.mem_cons_of_mem _ hb)]

theorem range_slice (n s m : Nat) (h : s + m ≤ n) :
    ((List.range n).drop s).take m = (List.range m).map (s + ·) := by
  refine List.ext_getElem? fun i => ?_
  by_cases hi : i < m
  · rw [List.getElem?_take_of_lt hi, List.getElem?_drop, List.getElem?_range (by omega), List.getElem?_map,
      List.getElem?_range hi, Option.map_some]
  · rw [List.getElem?_eq_none (by simp; omega), List.getElem?_eq_none (by simp; omega)]

/-- **C66.**  For every part with at least one cell, all of supported types, whatever the geometry and the
solution: the file is written, and a reader finds in it, in the order of the cells of the part, the type of
each cell and at each of its nodes the position and all the fields of that cell at that node. -/
theorem file_shows_cells {K : Nat} (cells : List (Cell G (Fin K → ℝ))) (hne : cells ≠ [])
    (h : ∀ c ∈ cells, Supported c) : ∃ p, writeSolutions cells = some p ∧
      p.numberOfCells = cells.length ∧ p.numberOfPoints = p.points.length ∧
      (∀ a ∈ p.pointData, a.length = p.numberOfPoints) ∧
      ∀ (i : Nat) (hi : i < cells.length), readCell p i = some ((typeAt cells[i]).id,
        (typeAt cells[i]).locals.map fun x => (cells[i].map x, List.ofFn (cells[i].value x))) := by
  have hs := collect_eq cells h ⟨[], [], []⟩
  simp only [List.nil_append] at hs
  have hv : (cells.flatMap fun c => (typeAt c).locals.map c.value).isEmpty = false := by
    cases cells with
    | nil => exact absurd rfl hne
    | cons c cs =>
      simp only [List.flatMap_cons]
      cases typeAt c <;> rfl
  refine ⟨piece ⟨cells.map typeAt, cells.flatMap fun c => (typeAt c).locals.map c.map,
    cells.flatMap fun c => (typeAt c).locals.map c.value⟩, by simp only [writeSolutions, hs, Option.bind_eq_bind, Option.bind_some, hv,
    Bool.false_eq_true, if_false], by simp [piece], rfl, ?_, ?_⟩
  · intro a ha
    simp only [piece, List.mem_map] at ha
    obtain ⟨k, -, rfl⟩ := ha
    simp [piece, List.length_flatMap]
  · intro i hi
    -- where the block of the cell starts
    let start := ((cells.take i).map fun c => (typeAt c).locals.length).sum
    have hstop : (offsets 0 (cells.map typeAt))[i]? = some (start + (typeAt cells[i]).locals.length) := by
      rw [offsets_get _ _ _ (by simpa using hi), Nat.zero_add, ← List.map_take, List.take_add_one,
        List.getElem?_eq_getElem hi, Option.toList_some, List.map_append, List.map_append, List.sum_append]
      simp only [start, countNodes_eq, Function.comp_def, List.map_map, List.map_cons, List.map_nil,
        List.sum_singleton]
    have hstart : (0 :: offsets 0 (cells.map typeAt))[i]? = some start := by
      cases i with
      | zero => rfl
      | succ i =>
        rw [List.getElem?_cons_succ, offsets_get _ _ _ (by simp; omega), Nat.zero_add, ← List.map_take]
        simp only [start, countNodes_eq, Function.comp_def, List.map_map]
    have hlen : start + (typeAt cells[i]).locals.length
        ≤ (cells.flatMap fun c => (typeAt c).locals.map c.map).length := by
      have hb : ∀ (l : List (Cell G (Fin K → ℝ))) (i : Nat) (hi : i < l.length),
          ((l.take i).map fun c => (typeAt c).locals.length).sum + (typeAt l[i]).locals.length
            ≤ (l.flatMap fun c => (typeAt c).locals.map c.map).length := by
        intro l
        induction l with
        | nil => intro i hi; simp at hi
        | cons c l ih =>
          intro i hi
          cases i with
          | zero => simp
          | succ i =>
            have := ih i (by simpa using hi)
            simp only [List.take_succ_cons, List.map_cons, List.sum_cons, List.getElem_cons_succ,
              List.flatMap_cons, List.length_append, List.length_map]
            omega
      exact hb cells i hi
    have hpt : ∀ j (hj : j < (typeAt cells[i]).locals.length),
        (cells.flatMap fun c => (typeAt c).locals.map c.map)[start + j]?
          = some (cells[i].map (typeAt cells[i]).locals[j]) := by
      intro j hj
      have := flatMap_block (fun c : Cell G (Fin K → ℝ) => (typeAt c).locals.map c.map) cells i hi j (by simpa using hj)
      simpa [start] using this
    have hval : ∀ j (hj : j < (typeAt cells[i]).locals.length),
        (cells.flatMap fun c => (typeAt c).locals.map c.value)[start + j]?
          = some (cells[i].value (typeAt cells[i]).locals[j]) := by
      intro j hj
      have := flatMap_block (fun c : Cell G (Fin K → ℝ) => (typeAt c).locals.map c.value) cells i hi j (by simpa using hj)
      simpa [start] using this
    simp only [readCell, piece, hstop, hstart, Option.bind_eq_bind, Option.bind_some, List.getElem?_map,
      List.getElem?_eq_getElem hi, Option.map_some, Nat.add_sub_cancel_left]
    rw [range_slice _ _ _ hlen]
    rw [mapM_of_forall₂ (r := (typeAt cells[i]).locals.map fun x => (cells[i].map x, List.ofFn (cells[i].value x)))]
    · rfl
    · rw [List.forall₂_iff_get]
      refine ⟨by simp, fun j hj _ => ?_⟩
      have hj : j < (typeAt cells[i]).locals.length := by simpa using hj
      simp only [List.get_eq_getElem, List.getElem_map, List.getElem_range, hpt j hj, Option.bind_some]
      rw [mapM_of_forall₂ (r := List.ofFn (cells[i].value (typeAt cells[i]).locals[j]))]
      · rfl
      · rw [List.forall₂_iff_get]
        refine ⟨by simp, fun k hk _ => ?_⟩
        simp [hval j hj]

/-- **C66.**  Pyramids cannot be written, and a part without cells makes the writer read `values[0]` of an
empty vector. -/
theorem file_undefined {K : Nat} : writeSolutions (G := G) (K := K) [] = none ∧
    ∀ (cells : List (Cell G (Fin K → ℝ))), (∃ c ∈ cells, ¬Supported c) → writeSolutions cells = none := by
  refine ⟨by simp [writeSolutions], fun cells hc => ?_⟩
  have : ∀ (l : List (Cell G (Fin K → ℝ))) s, (∃ c ∈ l, ¬Supported c) → l.foldlM prepare s = none := by
    intro l
    induction l with
    | nil => rintro s ⟨c, hc, -⟩; simp at hc
    | cons c l ih =>
      rintro s ⟨d, hd, hn⟩
      rw [List.foldlM_cons]
      by_cases hs : Supported c
      · rw [prepare_eq s c hs]
        rcases List.mem_cons.1 hd with rfl | hd
        · exact absurd hs hn
        · exact ih _ ⟨d, hd, hn⟩
      · have : getCellType c.corners = none := by simpa [Supported] using hs
        simp [prepare, this]
  simp [writeSolutions, this cells _ hc]

/-! ### The tables -/

/-- **C50.**  Types and numbers of nodes are those of the documentation, for every number of corners. -/
theorem types_documented (n : Nat) :
    (getCellType n).map (fun t => (t.id, countNodes t)) = typeOf n := by
  unfold getCellType
  split
  · rfl
  · rfl
  · rfl
  · unfold typeOf; split
    · simp_all
    · simp_all
    · simp_all
    · rfl

/-- **C50.**  Every table lists as many nodes as `CountNodes` says, all of them different. -/
theorem tables_nodup (t : CellType) : t.locals.Nodup ∧ t.locals.length = countNodes t := by
  cases t <;> exact ⟨by decide +kernel, rfl⟩

/-- **C50.**  In the tables which are used every node lies midway between the corners that the documentation
names. -/
theorem tables_between (n : Nat) (t : CellType) (h : getCellType n = some t) :
    t.locals = (between n).map (mean fun i => (t.locals[i]?).getD 0) := by
  unfold getCellType at h
  split at h
  · obtain rfl := Option.some.inj h; decide +kernel
  · obtain rfl := Option.some.inj h; decide +kernel
  · obtain rfl := Option.some.inj h; decide +kernel
  · simp at h

/-- **C50.**  The corners of the second-order tables are the first-order tables, except for wedges: there the
first-order table lists the corners in another order. -/
theorem tables_corners : tetrahedron10.take 4 = tetrahedron4 ∧ hexahedron20.take 8 = hexahedron8 ∧
    hexahedron27.take 20 = hexahedron20 ∧ hexahedron64.take 8 = hexahedron8 ∧
    wedge15.take 6 ≠ wedge6 ∧ (wedge15.take 6).Perm wedge6 := by decide +kernel

/-- **C50.**  The table with 64 nodes is the tensor grid in the order of VTK. -/
theorem table64 (i j k : Fin 4) : hexahedron64[lagrangeIndex i j k]?
    = some ![-1 + 2 * (i.val : ℚ) / 3, -1 + 2 * (j.val : ℚ) / 3, -1 + 2 * (k.val : ℚ) / 3] := by
  revert i j k; decide +kernel

/-- The CGNS numbers of the nodes shown by the file, for every class of solids the writer supports. -/
def shown : Kind → List Nat
  | .tetrahedron4 => [0, 1, 2, 3]
  | .tetrahedron10 => [0, 1, 2, 3, 4, 5, 6, 7, 8, 9]
  | .wedge6 => [0, 1, 2, 3, 4, 5]
  | .wedge15 | .wedge18 => [0, 1, 2, 3, 4, 5, 6, 7, 8, 12, 13, 14, 9, 10, 11]
  | .hexahedron8 => [0, 1, 2, 3, 4, 5, 6, 7]
  | .hexahedron20 => [0, 1, 2, 3, 4, 5, 6, 7, 8, 9, 10, 11, 16, 17, 18, 19, 12, 13, 14, 15]
  | .hexahedron26 => [0, 1, 2, 3, 4, 5, 6, 7, 8, 9, 10, 11, 16, 17, 18, 19, 12, 13, 14, 15, 24, 22, 21, 23, 20, 25]
  | .hexahedron27 =>
    [0, 1, 2, 3, 4, 5, 6, 7, 8, 9, 10, 11, 16, 17, 18, 19, 12, 13, 14, 15, 24, 22, 21, 23, 20, 25, 26]
  | _ => []

/-- The number of corners of each class. -/
def corners : Kind → Nat
  | .tetrahedron4 | .tetrahedron10 => 4
  | .wedge6 | .wedge15 | .wedge18 => 6
  | .hexahedron8 | .hexahedron20 | .hexahedron26 | .hexahedron27 => 8
  | .pyramid5 | .pyramid13 | .pyramid14 => 5
  | _ => 0

/-- The map of a cell in the writer's eyes: `LocalToGlobal` of its element. -/
noncomputable def cellMap (k : Kind) (hd : k.dim = 3) (coords : Fin k.count → Point ℝ 3) (x : Point ℚ 3) :
    Point ℝ 3 :=
  localToGlobal (k.element ℝ) coords (embed fun c => x (c.cast hd))

/-- The check of one class. -/
def Agrees {n : Nat} (nodes : Fin n → Point ℚ 3) (l : List Nat) (locals : List (Point ℚ 3)) : Prop :=
  l.length ≤ locals.length ∧ ∀ j : Fin l.length, ∃ h : l[j] < n, locals[j.val]? = some (nodes ⟨l[j], h⟩)

instance {n : Nat} (nodes : Fin n → Point ℚ 3) (l : List Nat) (locals : List (Point ℚ 3)) :
    Decidable (Agrees nodes l locals) := inferInstanceAs (Decidable (_ ∧ _))

theorem agrees_tetrahedron4 : Agrees (Shape.tetrahedron4 ℝ).nodes (shown .tetrahedron4) tetrahedron10 := by
  decide +kernel
theorem agrees_tetrahedron10 : Agrees (Shape.tetrahedron10 ℝ).nodes (shown .tetrahedron10) tetrahedron10 := by
  decide +kernel
theorem agrees_wedge6 : Agrees (Shape.wedge6 ℝ).nodes (shown .wedge6) wedge15 := by decide +kernel
theorem agrees_wedge15 : Agrees (Shape.wedge15 ℝ).nodes (shown .wedge15) wedge15 := by decide +kernel
theorem agrees_wedge18 : Agrees (Shape.wedge18 ℝ).nodes (shown .wedge18) wedge15 := by decide +kernel
theorem agrees_hexahedron8 : Agrees (Shape.hexahedron8 ℝ).nodes (shown .hexahedron8) hexahedron27 := by
  decide +kernel
theorem agrees_hexahedron20 : Agrees (Shape.hexahedron20 ℝ).nodes (shown .hexahedron20) hexahedron27 := by
  decide +kernel
theorem agrees_hexahedron26 : Agrees (Shape.hexahedron26 ℝ).nodes (shown .hexahedron26) hexahedron27 := by
  decide +kernel
theorem agrees_hexahedron27 : Agrees (Shape.hexahedron27 ℝ).nodes (shown .hexahedron27) hexahedron27 := by
  decide +kernel

theorem Agrees.shows {n : Nat} {e : Element ℝ 3 n} {l : List Nat} {locals : List (Point ℚ 3)}
    (h : Agrees e.nodes l locals) (coords : Fin n → Point ℝ 3)
    (hc : ∀ i, localToGlobal e coords (embed (e.nodes i)) = coords i) (j i : Nat) (hj : l[j]? = some i)
    (hi : i < n) :
    (locals.map fun x => localToGlobal e coords (embed x))[j]? = some (coords ⟨i, hi⟩) := by
  obtain ⟨hl, rfl⟩ := List.getElem?_eq_some_iff.1 hj
  obtain ⟨h1, h2⟩ := h.2 ⟨j, hl⟩
  simp only [Fin.getElem_fin] at h2
  rw [List.getElem?_map, h2, Option.map_some, hc]

/-- **C66.**  Whatever the order of the element, the file shows its nodes where the mesh has them: the
corners, and for elements of second order the nodes on edges, faces and inside which the VTK type has. -/
theorem shows_nodes (k : Kind) (hd : k.dim = 3) (t : CellType) (ht : getCellType (corners k) = some t)
    (coords : Fin k.count → Point ℝ 3) (j i : Nat) (hj : (shown k)[j]? = some i) (hi : i < k.count) :
    (t.locals.map (cellMap k hd coords))[j]? = some (coords ⟨i, hi⟩) := by
  have hc := local_to_global_node k coords
  cases k <;> simp only [corners, getCellType, reduceCtorEq, Option.some.injEq] at ht <;> subst ht
  · exact agrees_tetrahedron4.shows (e := Shape.tetrahedron4 ℝ) coords hc j i hj hi
  · exact agrees_tetrahedron10.shows (e := Shape.tetrahedron10 ℝ) coords hc j i hj hi
  · exact agrees_wedge6.shows (e := Shape.wedge6 ℝ) coords hc j i hj hi
  · exact agrees_wedge15.shows (e := Shape.wedge15 ℝ) coords hc j i hj hi
  · exact agrees_wedge18.shows (e := Shape.wedge18 ℝ) coords hc j i hj hi
  · exact agrees_hexahedron8.shows (e := Shape.hexahedron8 ℝ) coords hc j i hj hi
  · exact agrees_hexahedron20.shows (e := Shape.hexahedron20 ℝ) coords hc j i hj hi
  · exact agrees_hexahedron26.shows (e := Shape.hexahedron26 ℝ) coords hc j i hj hi
  · exact agrees_hexahedron27.shows (e := Shape.hexahedron27 ℝ) coords hc j i hj hi

/-- **C66.**  All corners are shown; every node is shown at most once; of the elements which have as many nodes
as their VTK type all nodes are shown. -/
theorem shown_all (k : Kind) : (shown k).Nodup ∧ (∀ i ∈ shown k, i < k.count) ∧
    ((getCellType (corners k)).isSome → (shown k).take (corners k) = List.range (corners k)) ∧
    (k = .tetrahedron10 ∨ k = .wedge15 ∨ k = .hexahedron27 →
      (shown k).Perm (List.range k.count)) := by
  cases k <;> decide +kernel

/-! ### Elements of first order -/

theorem sum_map_eq_count {n : Nat} (l : List Nat) (hl : ∀ i ∈ l, i < n) (f : Nat → ℝ) :
    (l.map f).sum = ∑ i : Fin n, f i * (l.count i.val : ℝ) := by
  induction l with
  | nil => simp
  | cons a l ih =>
    have ha : a < n := hl a (by simp)
    rw [List.map_cons, List.sum_cons, ih fun i hi => hl i (List.mem_cons_of_mem _ hi)]
    have : f a = ∑ i : Fin n, f i * (if a = i.val then 1 else 0 : ℝ) := by
      rw [Finset.sum_eq_single ⟨a, ha⟩]
      · simp
      · intro b _ hb
        rw [if_neg, mul_zero]
        rintro rfl; exact hb rfl
      · simp
    rw [this, ← Finset.sum_add_distrib]
    refine Finset.sum_congr rfl fun i _ => ?_
    rw [List.count_cons]
    by_cases h : a = i.val <;> simp [h] <;> ring

/-- The check of one class of first order: at each node of the VTK type the shape functions of the corners it lies
between are equal, and the others vanish. -/
def Weighs {n : Nat} (e : Element ℚ 3 n) (locals : List (Point ℚ 3)) (b : List (List Nat)) : Prop :=
  locals.length = b.length ∧ (∀ l ∈ b, ∀ i ∈ l, i < n) ∧
    ∀ q ∈ locals.zip b, ∀ i, e.shapes q.1 i = (q.2.count i.val : ℚ) / q.2.length

instance {n : Nat} (e : Element ℚ 3 n) (locals : List (Point ℚ 3)) (b : List (List Nat)) :
    Decidable (Weighs e locals b) := inferInstanceAs (Decidable (_ ∧ _))

theorem weighs_tetrahedron4 : Weighs (Shape.tetrahedron4 ℚ) tetrahedron10 (between 4) := by decide +kernel
theorem weighs_wedge6 : Weighs (Shape.wedge6 ℚ) wedge15 (between 6) := by decide +kernel
theorem weighs_hexahedron8 : Weighs (Shape.hexahedron8 ℚ) hexahedron27 (between 8) := by decide +kernel

theorem Weighs.mean {n : Nat} {e : Element ℚ 3 n} {e' : Element ℝ 3 n} {locals : List (Point ℚ 3)}
    {b : List (List Nat)} (h : Weighs e locals b) (hc : ∀ x i, e'.shapes (embed x) i = (e.shapes x i : ℝ))
    (coords : Fin n → Point ℝ 3) :
    (locals.map fun x => localToGlobal e' coords (embed x))
      = b.map (Spec.Vtk.mean fun i => if hi : i < n then coords ⟨i, hi⟩ else 0) := by
  refine List.ext_getElem (by simp [h.1]) fun j h1 h2 => ?_
  simp only [List.length_map] at h1 h2
  simp only [List.getElem_map]
  have hq := h.2.2 (locals[j], b[j]) (List.mem_iff_getElem.2 ⟨j, by simp [h1, h2], by simp⟩)
  funext c
  simp only [localToGlobal, hc, hq, Spec.Vtk.mean]
  rw [sum_map_eq_count (n := n) b[j] (h.2.1 _ (List.getElem_mem h2)), Finset.sum_div]
  refine Finset.sum_congr rfl fun i _ => ?_
  simp only [Fin.is_lt, dif_pos, Fin.eta]
  push_cast
  ring

theorem cast_tetrahedron4 (x : Point ℚ 3) (i : Fin 4) :
    (Shape.tetrahedron4 ℝ).shapes (embed x) i = ((Shape.tetrahedron4 ℚ).shapes x i : ℝ) := by
  fin_cases i <;> simp only [Shape.tetrahedron4, embed, Fin.zero_eta, Fin.mk_one, Fin.reduceFinMk, Fin.isValue,
    Matrix.cons_val] <;> push_cast <;> ring
theorem cast_wedge6 (x : Point ℚ 3) (i : Fin 6) :
    (Shape.wedge6 ℝ).shapes (embed x) i = ((Shape.wedge6 ℚ).shapes x i : ℝ) := by
  fin_cases i <;> simp only [Shape.wedge6, embed, Fin.zero_eta, Fin.mk_one, Fin.reduceFinMk, Fin.isValue,
    Matrix.cons_val] <;> push_cast <;> ring
theorem cast_hexahedron8 (x : Point ℚ 3) (i : Fin 8) :
    (Shape.hexahedron8 ℝ).shapes (embed x) i = ((Shape.hexahedron8 ℚ).shapes x i : ℝ) := by
  simp only [Shape.hexahedron8, cornerShape, embed]
  push_cast
  ring

/-- **C66.**  An element of first order is shown as a second-order cell whose further nodes lie midway between
the corners of the edge, face or cell they belong to: the picture is the element itself. -/
theorem shows_first_order (k : Kind) (hd : k.dim = 3)
    (hk : k = .tetrahedron4 ∨ k = .wedge6 ∨ k = .hexahedron8) (t : CellType)
    (ht : getCellType (corners k) = some t) (coords : Fin k.count → Point ℝ 3) :
    t.locals.map (cellMap k hd coords)
      = (between (corners k)).map (mean fun i => if hi : i < k.count then coords ⟨i, hi⟩ else 0) := by
  rcases hk with rfl | rfl | rfl <;> simp only [corners, getCellType, Option.some.injEq] at ht <;> subst ht
  · exact weighs_tetrahedron4.mean (e' := Shape.tetrahedron4 ℝ) cast_tetrahedron4 coords
  · exact weighs_wedge6.mean (e' := Shape.wedge6 ℝ) cast_wedge6 coords
  · exact weighs_hexahedron8.mean (e' := Shape.hexahedron8 ℝ) cast_hexahedron8 coords

/-! ### Instances -/

/-- Two cells of different types, all supported, one of them curved. -/
example (f : Fin 4 → Point ℝ 3) (g : Fin 20 → Point ℝ 3) (u v : Point ℚ 3 → Fin 5 → ℝ) :
    ∀ c ∈ [(⟨4, cellMap .tetrahedron4 rfl f, u⟩ : Cell (Point ℝ 3) (Fin 5 → ℝ)),
      ⟨8, cellMap .hexahedron20 rfl g, v⟩], Supported c := by
  intro c hc
  simp only [List.mem_cons, List.not_mem_nil, or_false] at hc
  rcases hc with rfl | rfl <;> rfl

example : ¬Supported (⟨corners .pyramid5, cellMap .pyramid5 rfl 0, fun _ => 0⟩ : Cell (Point ℝ 3) (Fin 5 → ℝ)) := by
  simp [Supported, corners, getCellType]

example : (shown .hexahedron20)[12]? = some 16 := rfl

end MiniCFD.Vtk
