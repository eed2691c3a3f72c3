import Verif.Model.Coordinates
import Verif.Spec.Coordinates
import Mathlib.Tactic.Linarith
import Mathlib.Tactic.LinearCombination
import Mathlib.Tactic.FieldSimp
import Mathlib.Tactic.Ring

/-! # C47: moving the nodes of a mesh -/

namespace MiniCFD.Coordinates

open MiniCFD.Spec.Coordinates

/-! ### What each call does to the points -/

/-- The transformation of space a call stands for. -/
noncomputable def Op.map : Op → Pt → Pt
  | .translate dx dy dz => shift (pt dx dy dz)
  | .dilate cx cy cz s => Spec.Coordinates.dilate (pt cx cy cz) s
  | .rotateZ ox oy degree => turn ⟨ox, oy⟩ (degree * Real.pi / 180)

/-- The factor by which distances grow. -/
def Op.factor : Op → ℝ
  | .translate .. => 1
  | .dilate _ _ _ s => s
  | .rotateZ .. => 1

/-- The three vectors are equally long. -/
def Coords.WF (c : Coords) : Prop := c.y.length = c.x.length ∧ c.z.length = c.x.length

/-- The points of a coordinate set. -/
noncomputable def Coords.point (c : Coords) (i : Nat) : Option Pt := (c.node i).map fun q => pt q.1 q.2.1 q.2.2

theorem turn_pt (ox oy degree x y z : ℝ) :
    turn ⟨ox, oy⟩ (degree * Real.pi / 180) (pt x y z)
      = pt (ox + ((x - ox) * (Frame.cosSin degree).1 - (y - oy) * (Frame.cosSin degree).2))
          (oy + ((x - ox) * (Frame.cosSin degree).2 + (y - oy) * (Frame.cosSin degree).1)) z := by
  simp only [turn, pt, Frame.cosSin, Frame.deg2rad, Prod.mk.injEq, and_true]
  rw [Complex.exp_mul_I, ← Complex.ofReal_cos, ← Complex.ofReal_sin]
  generalize Real.cos (degree * Real.pi / 180) = c
  generalize Real.sin (degree * Real.pi / 180) = s
  apply Complex.ext <;> simp <;> ring

/-- The loop of `RotateZ`. -/
theorem rotate_loop (ox oy c s : ℝ) (x y : List ℝ) (h : x.length ≤ y.length) (n : Nat) (hn : n ≤ x.length) :
    ∃ x' y', (List.range n).foldlM (rotateStep ox oy c s) (x, y) = some (x', y') ∧
      x'.length = x.length ∧ y'.length = y.length ∧
      ∀ (i : Nat) (hi : i < x.length),
        x'[i]? = some (if i < n then ox + ((x[i] - ox) * c - (y[i] - oy) * s) else x[i]) ∧
        y'[i]? = some (if i < n then oy + ((x[i] - ox) * s + (y[i] - oy) * c) else y[i]) := by
  induction n with
  | zero => exact ⟨x, y, rfl, rfl, rfl, fun i hi => by simp [hi, show i < y.length by omega]⟩
  | succ n ih =>
    obtain ⟨x', y', h1, h2, h3, h4⟩ := ih (by omega)
    obtain ⟨h5, h6⟩ := h4 n (by omega)
    simp only [lt_irrefl, if_false] at h5 h6
    refine ⟨_, _, by
      rw [List.range_succ, List.foldlM_append, h1]
      simp only [Option.bind_eq_bind, Option.bind_some, List.foldlM_cons, List.foldlM_nil, rotateStep, h5, h6]
      rfl, by simp [h2], by simp [h3], fun i hi => ?_⟩
    obtain ⟨h7, h8⟩ := h4 i hi
    by_cases e : i = n
    · subst e
      simp [h2, h3, hi, show i < y.length by omega]
    · have : i < n + 1 ↔ i < n := by omega
      simp only [List.getElem?_set_ne (Ne.symm e), h7, h8, this, and_self]

/-- Each call is defined on vectors of equal lengths, keeps them so, and moves every node by the
transformation. -/
theorem call_point {c : Coords} (h : c.WF) (op : Op) :
    ∃ c', c.call op = some c' ∧ c'.WF ∧ c'.x.length = c.x.length ∧ ∀ i, c'.point i = (c.point i).map op.map := by
  obtain ⟨x, y, z⟩ := c
  obtain ⟨h1, h2⟩ := h
  dsimp only at h1 h2
  cases op with
  | translate dx dy dz =>
    refine ⟨_, rfl, ⟨by simp [Coords.translate, h1], by simp [Coords.translate, h2]⟩, by simp [Coords.translate],
      fun i => ?_⟩
    rcases Nat.lt_or_ge (i - 1) x.length with hi | hi
    · have hy : i - 1 < y.length := by omega
      have hz : i - 1 < z.length := by omega
      simp [Coords.point, Coords.node, Coords.translate, hi, hy, hz, Op.map, shift, pt, Complex.ext_iff]
    · simp [Coords.point, Coords.node, Coords.translate, hi]
  | dilate cx cy cz s =>
    refine ⟨_, rfl, ⟨by simp [Coords.dilate, h1], by simp [Coords.dilate, h2]⟩, by simp [Coords.dilate],
      fun i => ?_⟩
    rcases Nat.lt_or_ge (i - 1) x.length with hi | hi
    · have hy : i - 1 < y.length := by omega
      have hz : i - 1 < z.length := by omega
      simp [Coords.point, Coords.node, Coords.dilate, hi, hy, hz, Op.map, Spec.Coordinates.dilate, pt,
        Complex.ext_iff]
    · simp [Coords.point, Coords.node, Coords.dilate, hi]
  | rotateZ ox oy degree =>
    obtain ⟨x', y', e, hx, hy, hp⟩ := rotate_loop ox oy (Frame.cosSin degree).1 (Frame.cosSin degree).2 x y
      (by omega) x.length le_rfl
    refine ⟨⟨x', y', z⟩, ?_, ⟨by simp [hx, hy, h1], by simp [hx, h2]⟩, hx, fun i => ?_⟩
    · simp only [Coords.call, Coords.rotateZ]
      rw [show (List.range x.length).foldlM (rotateStep ox oy (Frame.cosSin degree).1 (Frame.cosSin degree).2) (x, y)
        = some (x', y') from e]
      rfl
    · rcases Nat.lt_or_ge (i - 1) x.length with hi | hi
      · obtain ⟨a, b⟩ := hp (i - 1) hi
        have hy : i - 1 < y.length := by omega
        have hz : i - 1 < z.length := by omega
        simp only [Coords.point, Coords.node, a, b, hi, if_true, List.getElem?_eq_getElem hi,
          List.getElem?_eq_getElem hy, List.getElem?_eq_getElem hz, Option.bind_eq_bind, Option.bind_some,
          Option.map_some, Op.map, turn_pt]
      · have hi' : x'.length ≤ i - 1 := by omega
        simp [Coords.point, Coords.node, hi, hi']

/-! ### Histories -/

/-- The transformation a history stands for: the calls in order. -/
noncomputable def mapAll (ops : List Op) (p : Pt) : Pt := ops.foldl (fun p op => op.map p) p

/-- Every zone of every base is well formed. -/
def File.WF (f : File) : Prop := ∀ b ∈ f, ∀ c ∈ b, c.WF

/-- Node `i` of zone `z` of base `b`, all as the vectors number them. -/
noncomputable def File.point (f : File) (b z i : Nat) : Option Pt := do
  let base ← f[b]?
  let zone ← base[z]?
  zone.point i

/-- One file is the other with all points moved by `m`. -/
structure Moved (m : Pt → Pt) (f f' : File) : Prop where
  bases : f'.length = f.length
  zones : ∀ b : Nat, (f'[b]?).map List.length = (f[b]?).map List.length
  nodes : ∀ b z : Nat, ((f'[b]?).bind (·[z]?)).map (·.x.length) = ((f[b]?).bind (·[z]?)).map (·.x.length)
  points : ∀ b z i : Nat, f'.point b z i = (f.point b z i).map m

theorem mapM_spec {α β : Type} {g : α → Option β} {P : α → β → Prop} :
    ∀ {l : List α}, (∀ a ∈ l, ∃ b, g a = some b ∧ P a b) → ∃ l', l.mapM g = some l' ∧ List.Forall₂ P l l'
  | [], _ => ⟨[], rfl, .nil⟩
  | a :: l, h => by
    obtain ⟨b, hb, pb⟩ := h a (by simp)
    obtain ⟨l', hl, pl⟩ := mapM_spec (l := l) fun a ha => h a (by simp [ha])
    exact ⟨b :: l', by simp [hb, hl], .cons pb pl⟩

theorem forall2_get {α β : Type} {P : α → β → Prop} {l : List α} {l' : List β} (h : List.Forall₂ P l l') (i : Nat) :
    (l[i]? = none ∧ l'[i]? = none) ∨ ∃ a b, l[i]? = some a ∧ l'[i]? = some b ∧ P a b := by
  induction h generalizing i with
  | nil => simp
  | cons p _ ih =>
    cases i with
    | zero => exact .inr ⟨_, _, rfl, rfl, p⟩
    | succ i => simpa using ih i

theorem file_call {f : File} (h : f.WF) (op : Op) : ∃ f', f.call op = some f' ∧ f'.WF ∧ Moved op.map f f' := by
  let PC : Coords → Coords → Prop := fun c c' =>
    c'.WF ∧ c'.x.length = c.x.length ∧ ∀ i, c'.point i = (c.point i).map op.map
  obtain ⟨f', hf, pf⟩ := mapM_spec (g := fun b : Base => b.mapM fun c => c.call op)
    (P := fun b b' => List.Forall₂ PC b b') (l := f) fun b hb =>
      mapM_spec (P := PC) fun c hc => call_point (h b hb c hc) op
  refine ⟨f', hf, ?_, ⟨pf.length_eq.symm, fun b => ?_, fun b z => ?_, fun b z i => ?_⟩⟩
  · intro b' hb' c' hc'
    obtain ⟨k, hk⟩ := List.mem_iff_getElem?.1 hb'
    rcases forall2_get pf k with ⟨-, e⟩ | ⟨b, b'', -, e, pb⟩
    · rw [hk] at e; cases e
    · rw [hk] at e
      obtain rfl := Option.some.inj e
      obtain ⟨j, hj⟩ := List.mem_iff_getElem?.1 hc'
      rcases forall2_get pb j with ⟨-, e⟩ | ⟨c, c'', -, e, pc⟩
      · rw [hj] at e; cases e
      · rw [hj] at e
        obtain rfl := Option.some.inj e
        exact pc.1
  · rcases forall2_get pf b with ⟨e, e'⟩ | ⟨b, b', e, e', pb⟩
    · rw [e, e']
    · rw [e, e']; exact congrArg some pb.length_eq.symm
  · rcases forall2_get pf b with ⟨e, e'⟩ | ⟨b, b', e, e', pb⟩
    · rw [e, e']
    · rw [e, e']
      simp only [Option.bind_some]
      rcases forall2_get pb z with ⟨e, e'⟩ | ⟨c, c', e, e', pc⟩
      · rw [e, e']
      · rw [e, e']; exact congrArg some pc.2.1
  · unfold File.point
    simp only [Option.bind_eq_bind]
    rcases forall2_get pf b with ⟨e, e'⟩ | ⟨b, b', e, e', pb⟩
    · rw [e, e']; rfl
    · rw [e, e']
      simp only [Option.bind_some]
      rcases forall2_get pb z with ⟨e, e'⟩ | ⟨c, c', e, e', pc⟩
      · rw [e, e']; rfl
      · rw [e, e']; exact pc.2.2 i

theorem Moved.trans {m m' : Pt → Pt} {f f' f'' : File} (h : Moved m f f') (h' : Moved m' f' f'') :
    Moved (fun p => m' (m p)) f f'' :=
  ⟨h'.bases.trans h.bases, fun b => (h'.zones b).trans (h.zones b), fun b z => (h'.nodes b z).trans (h.nodes b z),
    fun b z i => by rw [h'.points, h.points, Option.map_map]; rfl⟩

/-- **C47.** A history of calls on a file is defined and moves every node of every zone by the composition of
the transformations, neither adding nor losing any. -/
theorem run_moves {f : File} (h : f.WF) (ops : List Op) :
    ∃ f', f.run ops = some f' ∧ f'.WF ∧ Moved (mapAll ops) f f' := by
  induction ops generalizing f with
  | nil => exact ⟨f, rfl, h, ⟨rfl, fun _ => rfl, fun _ _ => rfl, fun b z i => by
      cases f.point b z i <;> rfl⟩⟩
  | cons op ops ih =>
    obtain ⟨f', h1, h2, h3⟩ := file_call h op
    obtain ⟨f'', h4, h5, h6⟩ := ih h2
    refine ⟨f'', ?_, h5, h3.trans h6⟩
    simp only [File.run, List.foldlM_cons, h1] at h4 ⊢
    exact h4

/-! ### Similarity -/

theorem map_dist (op : Op) (p q : Pt) : dist2 (op.map p) (op.map q) = op.factor ^ 2 * dist2 p q := by
  obtain ⟨p1, p2⟩ := p
  obtain ⟨q1, q2⟩ := q
  cases op with
  | translate => simp [Op.map, shift, dist2, Op.factor]
  | dilate cx cy cz s =>
    simp only [Op.map, Spec.Coordinates.dilate, dist2, Op.factor, pt]
    rw [show ((⟨cx, cy⟩ : ℂ) + s * (p1 - ⟨cx, cy⟩) - (⟨cx, cy⟩ + s * (q1 - ⟨cx, cy⟩))) = s * (p1 - q1) by ring,
      Complex.normSq_mul, Complex.normSq_ofReal]
    ring
  | rotateZ ox oy degree =>
    simp only [Op.map, turn, dist2, Op.factor]
    rw [show ∀ a b c d : ℂ, a + b * (c - a) - (a + b * (d - a)) = b * (c - d) by intros; ring,
      Complex.normSq_mul, Complex.normSq_eq_norm_sq, Complex.norm_exp_ofReal_mul_I]
    ring

/-- **C47.** A history multiplies all squared distances by the square of the product of its dilation factors;
in particular one without dilations is rigid. -/
theorem run_dist (ops : List Op) (p q : Pt) :
    dist2 (mapAll ops p) (mapAll ops q) = (ops.map Op.factor).prod ^ 2 * dist2 p q := by
  induction ops generalizing p q with
  | nil => simp [mapAll]
  | cons op ops ih =>
    have : ∀ p, mapAll (op :: ops) p = mapAll ops (op.map p) := fun _ => rfl
    rw [this, this, ih, map_dist, List.map_cons, List.prod_cons]
    ring

/-- **C47.** Histories compose. -/
theorem mapAll_append (l l' : List Op) (p : Pt) : mapAll (l ++ l') p = mapAll l' (mapAll l p) := by
  simp [mapAll]

/-- The call that undoes a call. -/
noncomputable def Op.undo : Op → Op
  | .translate dx dy dz => .translate (-dx) (-dy) (-dz)
  | .dilate cx cy cz s => .dilate cx cy cz s⁻¹
  | .rotateZ ox oy degree => .rotateZ ox oy (-degree)

theorem undo_map {op : Op} (h : op.factor ≠ 0) (p : Pt) : op.undo.map (op.map p) = p := by
  obtain ⟨p1, p2⟩ := p
  cases op with
  | translate dx dy dz => simp [Op.undo, Op.map, shift, pt, Complex.ext_iff]
  | dilate cx cy cz s =>
    have hs : (s : ℝ) ≠ 0 := h
    have hs' : (s : ℂ) ≠ 0 := by exact_mod_cast hs
    simp only [Op.undo, Op.map, Spec.Coordinates.dilate, pt, Complex.ofReal_inv, Prod.mk.injEq]
    constructor
    · rw [add_sub_cancel_left, inv_mul_cancel_left₀ hs', add_sub_cancel]
    · rw [add_sub_cancel_left, inv_mul_cancel_left₀ hs, add_sub_cancel]
  | rotateZ ox oy degree =>
    simp only [Op.undo, Op.map, turn, Prod.mk.injEq, and_true]
    rw [add_sub_cancel_left, ← mul_assoc, ← Complex.exp_add,
      show ((-degree * Real.pi / 180 : ℝ) : ℂ) * Complex.I + ((degree * Real.pi / 180 : ℝ) : ℂ) * Complex.I = 0 by
        push_cast; ring, Complex.exp_zero, one_mul, add_sub_cancel]

/-- **C47.** Undoing the calls of a history, last first, brings every node back, unless some dilation had
factor zero. -/
theorem run_undo {f f' : File} (h : f.WF) (ops : List Op) (h0 : ∀ op ∈ ops, op.factor ≠ 0)
    (hr : f.run ops = some f') : ∃ f'', f'.run (ops.map Op.undo).reverse = some f'' ∧ Moved id f f'' := by
  have hm : ∀ p, mapAll (ops.map Op.undo).reverse (mapAll ops p) = p := by
    clear hr
    induction ops with
    | nil => intro p; rfl
    | cons op ops ih =>
      intro p
      rw [List.map_cons, List.reverse_cons, mapAll_append]
      have : ∀ p, mapAll (op :: ops) p = mapAll ops (op.map p) := fun _ => rfl
      rw [this, ih fun o ho => h0 o (by simp [ho])]
      exact undo_map (h0 op (by simp)) p
  obtain ⟨g, h1, h2, h3⟩ := run_moves h ops
  obtain rfl : g = f' := Option.some.inj (h1.symm.trans hr)
  obtain ⟨f'', h4, -, h6⟩ := run_moves h2 (ops.map Op.undo).reverse
  refine ⟨f'', h4, ?_⟩
  have := h3.trans h6
  rwa [show (fun p => mapAll (ops.map Op.undo).reverse (mapAll ops p)) = id from funext hm] at this

/-- **C47.** A dilation fixes its centre; a rotation fixes the points of its axis. -/
theorem fixed (cx cy cz s ox oy degree z : ℝ) :
    (Op.dilate cx cy cz s).map (pt cx cy cz) = pt cx cy cz ∧
      (Op.rotateZ ox oy degree).map (pt ox oy z) = pt ox oy z := by
  simp [Op.map, Spec.Coordinates.dilate, turn, pt]

/-- **C47.** Rotations about one axis add up, and a full turn is the identity. -/
theorem rotations_add (ox oy a b : ℝ) (p : Pt) :
    (Op.rotateZ ox oy b).map ((Op.rotateZ ox oy a).map p) = (Op.rotateZ ox oy (a + b)).map p ∧
      (Op.rotateZ ox oy 360).map p = p := by
  constructor
  · simp only [Op.map, turn, Prod.mk.injEq, and_true]
    rw [add_sub_cancel_left, ← mul_assoc, ← Complex.exp_add]
    congr 3
    push_cast
    ring
  · simp only [Op.map, turn]
    rw [show ((360 * Real.pi / 180 : ℝ) : ℂ) * Complex.I = 2 * Real.pi * Complex.I by push_cast; ring,
      Complex.exp_two_pi_mul_I, one_mul, add_sub_cancel]

/-- **C47.** `RotateZ` reads past the end of the second vector if that is the shorter one. -/
theorem rotate_undefined {c : Coords} (h : c.y.length < c.x.length) (ox oy degree : ℝ) :
    c.rotateZ ox oy degree = none := by
  obtain ⟨x, y, z⟩ := c
  dsimp only at h
  have key : ∀ (k : Nat) (st : Option (List ℝ × List ℝ)) , y.length < k →
      (List.range k).foldlM (rotateStep ox oy (Frame.cosSin degree).1 (Frame.cosSin degree).2) (x, y) = st →
      (∀ s, st = some s → False) := by
    have len : ∀ (k : Nat) s, (List.range k).foldlM
        (rotateStep ox oy (Frame.cosSin degree).1 (Frame.cosSin degree).2) (x, y) = some s →
        s.2.length = y.length := by
      intro k
      induction k with
      | zero => rintro s h; obtain rfl := Option.some.inj h; rfl
      | succ k ih =>
        intro s h
        rw [List.range_succ, List.foldlM_append] at h
        obtain ⟨t, ht, h⟩ := Option.bind_eq_some_iff.1 h
        simp only [List.foldlM_cons, List.foldlM_nil, rotateStep, Option.bind_eq_bind, Option.bind_eq_some_iff,
          Option.pure_def, Option.some.injEq] at h
        obtain ⟨_, ⟨_, -, _, -, rfl⟩, rfl⟩ := h
        simpa using ih t ht
    intro k st hk e s hs
    subst hs
    obtain ⟨j, rfl⟩ : ∃ j, k = y.length + 1 + j := ⟨k - (y.length + 1), by omega⟩
    rw [List.range_add, List.foldlM_append] at e
    obtain ⟨t, ht, -⟩ := Option.bind_eq_some_iff.1 e
    rw [List.range_succ, List.foldlM_append] at ht
    obtain ⟨u, hu, h⟩ := Option.bind_eq_some_iff.1 ht
    simp only [List.foldlM_cons, List.foldlM_nil, rotateStep, Option.bind_eq_bind, Option.bind_eq_some_iff] at h
    obtain ⟨_, ⟨_, -, y', hy', -⟩, -⟩ := h
    have := (List.getElem?_eq_some_iff.1 hy').1
    rw [len _ _ hu] at this
    omega
  simp only [Coords.rotateZ]
  cases e : (List.range x.length).foldlM (rotateStep ox oy (Frame.cosSin degree).1 (Frame.cosSin degree).2) (x, y) with
  | none => simp
  | some s => exact (key x.length _ h e s rfl).elim

/-- A quarter turn about the axis through `(1, 0)` takes `(2, 0, 5)` to `(1, 1, 5)`. -/
example : ∃ f', File.run [[⟨[2], [0], [5]⟩]] [.rotateZ 1 0 90] = some f' ∧
    f'.point 0 0 1 = some (pt 1 1 5) := by
  obtain ⟨f', h1, -, h3⟩ := run_moves (f := [[⟨[2], [0], [5]⟩]]) (by
    intro b hb c hc
    simp only [List.mem_singleton] at hb
    subst hb
    simp only [List.mem_singleton] at hc
    subst hc
    exact ⟨rfl, rfl⟩) [.rotateZ 1 0 90]
  refine ⟨f', h1, ?_⟩
  rw [h3.points]
  have : File.point [[⟨[2], [0], [5]⟩]] 0 0 1 = some (pt 2 0 5) := rfl
  rw [this, Option.map_some]
  have e : mapAll [.rotateZ 1 0 90] (pt 2 0 5) = turn ⟨1, 0⟩ (90 * Real.pi / 180) (pt 2 0 5) := rfl
  have a : (90 * Real.pi / 180 : ℝ) = Real.pi / 2 := by ring
  rw [e, turn_pt]
  simp only [Frame.cosSin, Frame.deg2rad, a, Real.cos_pi_div_two, Real.sin_pi_div_two]
  norm_num

end MiniCFD.Coordinates
