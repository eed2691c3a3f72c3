import Verif.Lemmas.Source

/-!
# C73: the part of a blade in a cell

`Intersect` should return the ends of the part of the blade that is in the cell.  It does for blades whose ends are
both outside the cell; it does not for cells with an end of the blade inside or for cells at the boundary.
-/

namespace MiniCFD.Source

open MiniCFD.Frame MiniCFD.Spec.Source
open MiniCFD.Intersect (Columns Regular)

variable {v : Fin 4 → Vec} {p q : Vec} {solve : Columns ℝ → Vec → Vec} {order : List (Fin 4)} {faces : List Triangle}

/-- A weight that is zero at `x` and not negative on both sides of `x` is zero everywhere. -/
theorem touch {a b r x s : ℝ} (h1 : r < x) (h2 : x < s) (hr : 0 ≤ (1 - r) * a + r * b) (hx : (1 - x) * a + x * b = 0)
    (hs : 0 ≤ (1 - s) * a + s * b) : a = 0 ∧ b = 0 := by
  have hd : (1 - r) * a + r * b = (x - r) * (a - b) := by linear_combination hx
  have hd' : (1 - s) * a + s * b = -((s - x) * (a - b)) := by linear_combination hx
  rw [hd] at hr
  rw [hd'] at hs
  have e1 : 0 ≤ a - b := nonneg_of_mul_nonneg_right hr (sub_pos.2 h1)
  have e2 : 0 ≤ b - a := by
    have : 0 ≤ (s - x) * (b - a) := by linarith
    exact nonneg_of_mul_nonneg_right this (sub_pos.2 h2)
  have e : a = b := by linarith
  subst e
  have : a = 0 := by linear_combination hx
  exact ⟨this, this⟩

theorem pair_of_mem {L : List ℝ} {r s : ℝ} (hn : L.Nodup) (hrs : r < s) (hr : r ∈ L) (hs : s ∈ L)
    (h : ∀ x ∈ L, x = r ∨ x = s) : fromHits L = (r, s) := by
  have hp : L.Perm [r, s] := (List.perm_ext_iff_of_nodup hn (by simp [hrs.ne])).2 fun x => by
    constructor
    · intro hx
      rcases h x hx with e | e <;> simp [e]
    · intro hx
      rcases List.mem_cons.1 hx with e | hx
      · rwa [e]
      · rw [List.mem_singleton] at hx
        rwa [hx]
  match L, hp.length_eq with
  | [a, b], _ =>
    have ha := h a (by simp)
    have hb := h b (by simp)
    have hab : a ≠ b := by
      intro e
      rw [e] at hn
      simp at hn
    simp only [fromHits]
    rcases ha with rfl | rfl <;> rcases hb with rfl | rfl
    · exact absurd rfl hab
    · rw [min_eq_left hrs.le, max_eq_right hrs.le]
    · rw [min_eq_right hrs.le, max_eq_left hrs.le]
    · exact absurd rfl hab

theorem single_of_mem {L : List ℝ} {r : ℝ} (hn : L.Nodup) (hr : r ∈ L) (h : ∀ x ∈ L, x = r) :
    fromHits L = if r < 1 / 2 then (0, r) else (r, 1) := by
  have hp : L.Perm [r] := (List.perm_ext_iff_of_nodup hn (by simp)).2 fun x => by
    rw [List.mem_singleton]
    exact ⟨h x, fun e => e ▸ hr⟩
  rw [List.perm_singleton.1 hp]
  rfl

/-- Where a segment with both ends outside passes through the tetrahedron: it enters through one side and leaves through
another one. -/
theorem passage (hv : Solid v) (ho : OffPlanes v p q) (he : OffEdges v p q) (hp : ¬ Inside v p) (hq : ¬ Inside v q)
    {c : ℝ} (hc : Clip v p q c) :
    ∃ r s i j, 0 < r ∧ r < s ∧ s < 1 ∧ i ≠ j ∧ OnSide v i (along p q r) ∧ OnSide v j (along p q s) ∧
      (∀ t, Clip v p q t ↔ r ≤ t ∧ t ≤ s) ∧
      ∀ t k, 0 ≤ t → t ≤ 1 → OnSide v k (along p q t) → t = r ∧ k = i ∨ t = s ∧ k = j := by
  obtain ⟨α, wp⟩ := weights_exist hv p
  obtain ⟨β, wq⟩ := weights_exist hv q
  obtain ⟨c0, c1, hc⟩ := hc
  have hc' := (inside_iff hv wp wq c).1 hc
  have h0 : ∃ j, α j < 0 := by
    by_contra h
    push Not at h
    exact hp ⟨α, wp, h⟩
  have h1 : ∃ j, β j < 0 := by
    by_contra h
    push Not at h
    exact hq ⟨β, wq, h⟩
  obtain ⟨i, r, r0, rc, hi, zi, hr⟩ := enters c0 c1 hc' h0
  obtain ⟨j, s', s0, sc, hj, zj, hs⟩ := enters (α := β) (β := α) (c := 1 - c) (by linarith) (by linarith)
    (fun k => by have := hc' k; linarith) h1
  obtain ⟨s, rfl⟩ : ∃ s, s' = 1 - s := ⟨1 - s', by ring⟩
  have hs' : ∀ k, 0 ≤ (1 - s) * α k + s * β k := fun k => by have := hs k; linarith
  have zj' : (1 - s) * α j + s * β j = 0 := by linear_combination zj
  have sidei : OnSide v i (along p q r) := (onSide_iff hv wp wq i r).2 ⟨hr, zi⟩
  have sidej : OnSide v j (along p q s) := (onSide_iff hv wp wq j s).2 ⟨hs', zj'⟩
  have hne : r ≠ s := by
    intro e
    rw [e] at sidei
    have hij := he s (by linarith) (by linarith) _ _ sidei sidej
    rw [hij] at hi
    have : 0 < s := e ▸ r0
    have : s < 1 := by linarith
    nlinarith
  have hrs : r < s := lt_of_le_of_ne (by linarith) hne
  have hout : ∀ t, Clip v p q t → r ≤ t ∧ t ≤ s := by
    rintro t ⟨t0, t1, ht⟩
    have ht' := (inside_iff hv wp wq t).1 ht
    constructor
    · by_contra h
      push Not at h
      have h2 := ht' i
      have : (1 - t) * α i + t * β i = (r - t) * (α i - β i) := by linear_combination zi
      rw [this] at h2
      have h3 := nonneg_of_mul_nonneg_right h2 (sub_pos.2 h)
      have : 0 ≤ r * β i - r * α i - -α i := by linear_combination (-1 : ℝ) * zi
      nlinarith
    · by_contra h
      push Not at h
      have h2 := ht' j
      have : (1 - t) * α j + t * β j = (t - s) * (β j - α j) := by linear_combination zj'
      rw [this] at h2
      have h3 := nonneg_of_mul_nonneg_right h2 (sub_pos.2 h)
      have : (1 - s) * (β j - α j) = β j := by linear_combination -zj'
      have : 0 ≤ (1 - s) * (β j - α j) := mul_nonneg (by linarith) h3
      linarith
  refine ⟨r, s, i, j, r0, hrs, by linarith, ?_, sidei, sidej, fun t => ⟨hout t, fun ⟨h1, h2⟩ => ⟨by linarith,
    by linarith, (inside_iff hv wp wq t).2 fun k => ?_⟩⟩, fun t k t0 t1 hk => ?_⟩
  · rintro rfl
    have : (s - r) * (β i - α i) = 0 := by linear_combination zj' - zi
    rcases mul_eq_zero.1 this with h | h
    · exact hne (by linarith)
    · have e : β i = α i := by linarith
      rw [e] at zi
      have : α i = 0 := by linear_combination zi
      exact hi.ne this
  · have e : (s - r) * ((1 - t) * α k + t * β k) =
        (s - t) * ((1 - r) * α k + r * β k) + (t - r) * ((1 - s) * α k + s * β k) := by ring
    have : 0 ≤ (s - r) * ((1 - t) * α k + t * β k) := by
      rw [e]
      exact add_nonneg (mul_nonneg (by linarith) (hr k)) (mul_nonneg (by linarith) (hs' k))
    exact nonneg_of_mul_nonneg_right this (by linarith)
  · obtain ⟨h1, h2⟩ := (onSide_iff hv wp wq k t).1 hk
    obtain ⟨g1, g2⟩ := hout t ⟨t0, t1, (inside_iff hv wp wq t).2 h1⟩
    rcases g1.lt_or_eq with g1 | g1
    · rcases g2.lt_or_eq with g2 | g2
      · obtain ⟨ea, eb⟩ := touch g1 g2 (hr k) h2 (hs' k)
        exact absurd ⟨(inPlane_iff hv wp k).2 ea, (inPlane_iff hv wq k).2 eb⟩ (ho k)
      · subst g2
        exact Or.inr ⟨rfl, he t t0 t1 _ _ hk sidej⟩
    · subst g1
      exact Or.inl ⟨rfl, he r t0 t1 _ _ hk sidei⟩

/-- For a blade with both ends outside a cell, of which all sides are between cells, `Intersect` returns the part of
the blade in the cell, or an empty interval if there is none.  Missing for the full claim: blades ending in the cell
and cells at the boundary, where the answer is wrong (below), and blades in the plane of a side or through an edge. -/
theorem chord_partial (hv : Solid v) (hs : Regular solve) (hf : AreSides v order faces) (hall : ∀ i, i ∈ order)
    (ho : OffPlanes v p q) (he : OffEdges v p q) (hp : ¬ Inside v p) (hq : ¬ Inside v q) :
    let rs := segment solve faces p (q - p)
    ((∃ t, Clip v p q t) ↔ rs.1 < rs.2) ∧ (rs.1 < rs.2 → ∀ t, Clip v p q t ↔ rs.1 ≤ t ∧ t ≤ rs.2) := by
  intro rs
  obtain ⟨L, h1, h2, h3⟩ := hits_spec hv hs ho hf
  by_cases hc : ∃ t, Clip v p q t
  · obtain ⟨c, hc⟩ := hc
    obtain ⟨r, s, i, j, r0, hrs, s1, hij, hi, hj, hclip, honly⟩ := passage hv ho he hp hq hc
    have e : rs = (r, s) := by
      refine h1.trans (pair_of_mem (h3 he) hrs ((h2 r).2 ⟨r0.le, by linarith, i, hall i, hi⟩)
        ((h2 s).2 ⟨by linarith, s1.le, j, hall j, hj⟩) fun x hx => ?_)
      obtain ⟨x0, x1, k, -, hk⟩ := (h2 x).1 hx
      rcases honly x k x0 x1 hk with h | h
      · exact Or.inl h.1
      · exact Or.inr h.1
    rw [e]
    exact ⟨⟨fun _ => hrs, fun _ => ⟨c, hc⟩⟩, fun _ t => hclip t⟩
  · have hL : L = [] := by
      rw [List.eq_nil_iff_forall_not_mem]
      intro x hx
      obtain ⟨x0, x1, k, -, w, hw, hw', -⟩ := (h2 x).1 hx
      exact hc ⟨x, x0, x1, w, hw, hw'⟩
    have e : rs = (-1, -1) := by rw [show rs = fromHits L from h1, hL]; rfl
    rw [e]
    exact ⟨⟨fun h => absurd h hc, fun h => absurd h (lt_irrefl _)⟩, fun h => absurd h (lt_irrefl _)⟩

/-! ### What goes wrong -/

theorem interior_inside {x : Vec} (h : Interior v x) : Inside v x := by
  obtain ⟨w, h1, h2⟩ := h
  exact ⟨w, h1, fun j => (h2 j).le⟩

theorem offPlanes_of_interior (hv : Solid v) (hp : Interior v p) : OffPlanes v p q := by
  rintro i ⟨h, -⟩
  obtain ⟨w, h1, h2⟩ := hp
  rw [inPlane_iff hv h1] at h
  exact (h2 i).ne' h

theorem offPlanes_of_interior' (hv : Solid v) (hq : Interior v q) : OffPlanes v p q := by
  rintro i ⟨-, h⟩
  obtain ⟨w, h1, h2⟩ := hq
  rw [inPlane_iff hv h1] at h
  exact (h2 i).ne' h

/-- A blade that starts inside the cell and leaves it at `s`: the answer is `[0, s]`, as it should be, if `s < 1 / 2`,
and `[s, 1]`, the part outside the cell, otherwise. -/
theorem inner_start (hv : Solid v) (hs : Regular solve) (hf : AreSides v order faces) (hall : ∀ i, i ∈ order)
    (he : OffEdges v p q) (hp : Interior v p) (hq : ¬ Inside v q) :
    ∃ s, 0 < s ∧ s < 1 ∧ (∀ t, Clip v p q t ↔ 0 ≤ t ∧ t ≤ s) ∧
      segment solve faces p (q - p) = if s < 1 / 2 then (0, s) else (s, 1) := by
  obtain ⟨L, h1, h2, h3⟩ := hits_spec hv hs (offPlanes_of_interior hv hp) hf
  obtain ⟨α, wp, hα⟩ := hp
  obtain ⟨β, wq⟩ := weights_exist hv q
  have hβ : ∃ j, β j < 0 := by
    by_contra h
    push Not at h
    exact hq ⟨β, wq, h⟩
  obtain ⟨j, s', s0, sc, hj, zj, hs'⟩ := enters (α := β) (β := α) (c := 1) zero_le_one le_rfl
    (fun k => by have := hα k; linarith) hβ
  obtain ⟨s, rfl⟩ : ∃ s, s' = 1 - s := ⟨1 - s', by ring⟩
  have hw : ∀ k, 0 ≤ (1 - s) * α k + s * β k := fun k => by have := hs' k; linarith
  have zj' : (1 - s) * α j + s * β j = 0 := by linear_combination zj
  have spos : 0 < s := by
    rcases (show 0 ≤ s by linarith).lt_or_eq with h | h
    · exact h
    · rw [← h] at zj'
      have := hα j
      linarith
  have hclip : ∀ t, Clip v p q t ↔ 0 ≤ t ∧ t ≤ s := by
    intro t
    constructor
    · rintro ⟨t0, t1, ht⟩
      refine ⟨t0, ?_⟩
      by_contra h
      push Not at h
      have h4 := (inside_iff hv wp wq t).1 ht j
      have : (1 - t) * α j + t * β j = (t - s) * (β j - α j) := by linear_combination zj'
      rw [this] at h4
      have h5 := nonneg_of_mul_nonneg_right h4 (sub_pos.2 h)
      have := hα j
      linarith
    · rintro ⟨t0, ts⟩
      refine ⟨t0, by linarith, (inside_iff hv wp wq t).2 fun k => ?_⟩
      have e : s * ((1 - t) * α k + t * β k) = (s - t) * α k + t * ((1 - s) * α k + s * β k) := by ring
      have : 0 ≤ s * ((1 - t) * α k + t * β k) := by
        rw [e]
        exact add_nonneg (mul_nonneg (by linarith) (hα k).le) (mul_nonneg t0 (hw k))
      exact nonneg_of_mul_nonneg_right this spos
  refine ⟨s, spos, by linarith, hclip, h1.trans (single_of_mem (h3 he)
    ((h2 s).2 ⟨spos.le, by linarith, j, hall j, (onSide_iff hv wp wq j s).2 ⟨hw, zj'⟩⟩) fun x hx => ?_)⟩
  obtain ⟨x0, x1, k, -, hk⟩ := (h2 x).1 hx
  obtain ⟨g1, g2⟩ := (onSide_iff hv wp wq k x).1 hk
  obtain ⟨-, xs⟩ := (hclip x).1 ⟨x0, x1, (inside_iff hv wp wq x).2 g1⟩
  rcases xs.lt_or_eq with xs | xs
  · exfalso
    rcases x0.lt_or_eq with x0 | x0
    · obtain ⟨ea, -⟩ := touch (r := 0) x0 xs (by have := hα k; linarith) g2 (hw k)
      exact (hα k).ne' ea
    · rw [← x0] at g2
      have := hα k
      linarith
  · exact xs

/-- Run the other way. -/
theorem along_swap (p q : Vec) (t : ℝ) : along p q t = along q p (1 - t) := by
  unfold along
  module

/-- A blade that enters the cell at `r` and ends inside: the answer is `[r, 1]`, as it should be, if `1 / 2 ≤ r`, and
`[0, r]`, the part outside the cell, otherwise. -/
theorem inner_end (hv : Solid v) (hs : Regular solve) (hf : AreSides v order faces) (hall : ∀ i, i ∈ order)
    (he : OffEdges v p q) (hp : ¬ Inside v p) (hq : Interior v q) :
    ∃ r, 0 < r ∧ r < 1 ∧ (∀ t, Clip v p q t ↔ r ≤ t ∧ t ≤ 1) ∧
      segment solve faces p (q - p) = if r < 1 / 2 then (0, r) else (r, 1) := by
  obtain ⟨L, h1, h2, h3⟩ := hits_spec hv hs (offPlanes_of_interior' hv hq) hf
  -- the sides met from the other end
  have he' : OffEdges v q p := fun t t0 t1 i j hi hj => by
    rw [along_swap] at hi hj
    exact he (1 - t) (by linarith) (by linarith) i j hi hj
  obtain ⟨L', g1, g2, g3⟩ := hits_spec hv hs (offPlanes_of_interior (q := p) hv hq) hf
  obtain ⟨s, s0, s1, hclip, hseg⟩ := inner_start hv hs hf hall he' hq hp
  have hone : ∀ t, 0 ≤ t → t ≤ 1 → (∃ i ∈ order, OnSide v i (along q p t)) → t = s := by
    intro t t0 t1 ⟨i, hi, ht⟩
    obtain ⟨β, wq, hβ⟩ := hq
    obtain ⟨α, wp⟩ := weights_exist hv p
    obtain ⟨a1, a2⟩ := (onSide_iff hv wq wp i t).1 ht
    obtain ⟨-, ts⟩ := (hclip t).1 ⟨t0, t1, (inside_iff hv wq wp t).2 a1⟩
    rcases ts.lt_or_eq with ts | ts
    · exfalso
      have hsw := (inside_iff hv wq wp s).1 ((hclip s).2 ⟨s0.le, le_rfl⟩).2.2
      rcases t0.lt_or_eq with t0 | t0
      · obtain ⟨ea, -⟩ := touch (r := 0) t0 ts (by have := hβ i; linarith) a2 (hsw i)
        exact (hβ i).ne' ea
      · rw [← t0] at a2
        have := hβ i
        linarith
    · exact ts
  have hmem : ∃ i ∈ order, OnSide v i (along q p s) := by
    by_contra hno
    have : L' = [] := by
      rw [List.eq_nil_iff_forall_not_mem]
      intro x hx
      obtain ⟨x0, x1, hx'⟩ := (g2 x).1 hx
      have := hone x x0 x1 hx'
      rw [this] at hx'
      exact hno hx'
    rw [this] at g1
    rw [g1] at hseg
    simp only [fromHits] at hseg
    split_ifs at hseg <;> simp only [Prod.mk.injEq] at hseg <;> linarith [hseg.1]
  have r0 : 0 < 1 - s := by linarith
  refine ⟨1 - s, r0, by linarith, fun t => ?_, h1.trans (single_of_mem (h3 he)
    ((h2 (1 - s)).2 ⟨r0.le, by linarith, ?_⟩) fun x hx => ?_)⟩
  · have := hclip (1 - t)
    unfold Clip at this ⊢
    rw [along_swap]
    constructor
    · rintro ⟨a, b, c⟩
      obtain ⟨-, d⟩ := this.1 ⟨by linarith, by linarith, c⟩
      exact ⟨by linarith, b⟩
    · rintro ⟨a, b⟩
      obtain ⟨c, d, e⟩ := this.2 ⟨by linarith, by linarith⟩
      exact ⟨by linarith, b, e⟩
  · obtain ⟨i, hi, h⟩ := hmem
    refine ⟨i, hi, ?_⟩
    rwa [along_swap, sub_sub_cancel]
  · obtain ⟨x0, x1, i, hi, h⟩ := (h2 x).1 hx
    rw [along_swap] at h
    have := hone (1 - x) (by linarith) (by linarith) ⟨i, hi, h⟩
    linarith

/-- A blade within one cell: nothing is found, although all of it is in the cell. -/
theorem inner_both (hv : Solid v) (hs : Regular solve) (hf : AreSides v order faces) (hp : Interior v p)
    (hq : Interior v q) :
    (∀ t, Clip v p q t ↔ 0 ≤ t ∧ t ≤ 1) ∧ segment solve faces p (q - p) = (-1, -1) := by
  obtain ⟨L, h1, h2, -⟩ := hits_spec hv hs (offPlanes_of_interior (q := q) hv hp) hf
  obtain ⟨α, wp, hα⟩ := hp
  obtain ⟨β, wq, hβ⟩ := hq
  have pos : ∀ t k, 0 ≤ t → t ≤ 1 → 0 < (1 - t) * α k + t * β k := by
    intro t k t0 t1
    rcases t0.lt_or_eq with t0 | t0
    · exact add_pos_of_nonneg_of_pos (mul_nonneg (by linarith) (hα k).le) (mul_pos t0 (hβ k))
    · rw [← t0]
      have := hα k
      linarith
  refine ⟨fun t => ⟨fun h => ⟨h.1, h.2.1⟩, fun ⟨t0, t1⟩ => ⟨t0, t1, (inside_iff hv wp wq t).2 fun k =>
    (pos t k t0 t1).le⟩⟩, ?_⟩
  have hL : L = [] := by
    rw [List.eq_nil_iff_forall_not_mem]
    intro x hx
    obtain ⟨x0, x1, k, -, hk⟩ := (h2 x).1 hx
    exact (pos x k x0 x1).ne' ((onSide_iff hv wp wq k x).1 hk).2
  rw [h1, hL]
  rfl

/-- A cell at the boundary: the sides on the boundary are not in `adj_faces_`.  When the blade enters or leaves through
such a side, and through another side the other way, the answer is never the part of the blade in the cell. -/
theorem boundary_side (hv : Solid v) (hs : Regular solve) (hf : AreSides v order faces) (b : Fin 4) (hb : b ∉ order)
    (hall : ∀ i, i ≠ b → i ∈ order) (ho : OffPlanes v p q) (he : OffEdges v p q) (hp : ¬ Inside v p)
    (hq : ¬ Inside v q) (t : ℝ) (t0 : 0 ≤ t) (t1 : t ≤ 1) (ht : OnSide v b (along p q t)) :
    ∃ r s, r < s ∧ (∀ t, Clip v p q t ↔ r ≤ t ∧ t ≤ s) ∧ segment solve faces p (q - p) ≠ (r, s) := by
  obtain ⟨L, h1, h2, h3⟩ := hits_spec hv hs ho hf
  have hc : Clip v p q t := by
    obtain ⟨w, a, b, -⟩ := ht
    exact ⟨t0, t1, w, a, b⟩
  obtain ⟨r, s, i, j, r0, hrs, s1, hij, hi, hj, hclip, honly⟩ := passage hv ho he hp hq hc
  refine ⟨r, s, hrs, hclip, ?_⟩
  rcases honly t b t0 t1 ht with ⟨rfl, rfl⟩ | ⟨rfl, rfl⟩
  · -- only the exit is found
    have e := h1.trans (single_of_mem (h3 he) ((h2 s).2 ⟨by linarith, s1.le, j, hall j hij.symm, hj⟩)
      fun x hx => by
        obtain ⟨x0, x1, k, hk, hx'⟩ := (h2 x).1 hx
        rcases honly x k x0 x1 hx' with ⟨-, rfl⟩ | ⟨rfl, -⟩
        · exact absurd hk hb
        · rfl)
    rw [e]
    split_ifs
    · intro h
      have := (Prod.mk.inj h).1
      linarith
    · intro h
      have := (Prod.mk.inj h).1
      linarith
  · have e := h1.trans (single_of_mem (h3 he) ((h2 r).2 ⟨r0.le, by linarith, i, hall i hij, hi⟩)
      fun x hx => by
        obtain ⟨x0, x1, k, hk, hx'⟩ := (h2 x).1 hx
        rcases honly x k x0 x1 hx' with ⟨rfl, -⟩ | ⟨-, rfl⟩
        · rfl
        · exact absurd hk hb)
    rw [e]
    split_ifs
    · intro h
      have := (Prod.mk.inj h).2
      linarith
    · intro h
      have := (Prod.mk.inj h).2
      linarith

/-! ### Cases -/

/-- The unit tetrahedron. -/
def unit : Fin 4 → Vec := ![0, ![1, 0, 0], ![0, 1, 0], ![0, 0, 1]]

/-- Its sides: `x = 0`, `y = 0`, `z = 0` and the slanted one. -/
def unitFaces : List Triangle :=
  [⟨unit 0, unit 2, unit 3⟩, ⟨unit 0, unit 1, unit 3⟩, ⟨unit 0, unit 1, unit 2⟩, ⟨unit 1, unit 2, unit 3⟩]

theorem unit_point (x : Vec) : IsPoint unit ![1 - x 0 - x 1 - x 2, x 0, x 1, x 2] x := by
  constructor
  · simp only [Fin.sum_univ_four, Matrix.cons_val_zero, Matrix.cons_val_one, Matrix.cons_val]
    ring
  · funext i
    fin_cases i <;> simp [unit, Fin.sum_univ_four]

theorem unit_solid : Solid unit := by
  intro w h1 h2
  have e0 := congrFun h2 0
  have e1 := congrFun h2 1
  have e2 := congrFun h2 2
  simp [unit, Fin.sum_univ_four] at e0 e1 e2
  rw [Fin.sum_univ_four, e0, e1, e2] at h1
  funext i
  fin_cases i
  · simpa using h1
  exacts [e0, e1, e2]

theorem unit_sides : AreSides unit [1, 2, 3, 0] unitFaces := by
  refine ⟨by decide, ?_⟩
  refine .cons ⟨0, 2, 3, by decide, rfl⟩ (.cons ⟨0, 1, 3, by decide, rfl⟩ (.cons ⟨0, 1, 2, by decide, rfl⟩
    (.cons ⟨1, 2, 3, by decide, rfl⟩ .nil)))

theorem unit_all : ∀ i : Fin 4, i ∈ [(1 : Fin 4), 2, 3, 0] := by decide

theorem unit_inside (x : Vec) : Inside unit x ↔ 0 ≤ 1 - x 0 - x 1 - x 2 ∧ 0 ≤ x 0 ∧ 0 ≤ x 1 ∧ 0 ≤ x 2 := by
  constructor
  · rintro ⟨w, h1, h2⟩
    rw [weights_unique unit_solid h1 (unit_point x)] at h2
    exact ⟨h2 0, h2 1, h2 2, h2 3⟩
  · rintro ⟨h0, h1, h2, h3⟩
    refine ⟨_, unit_point x, fun j => ?_⟩
    fin_cases j
    exacts [h0, h1, h2, h3]

theorem unit_side (i : Fin 4) (x : Vec) : OnSide unit i x ↔ Inside unit x ∧
    (![1 - x 0 - x 1 - x 2, x 0, x 1, x 2] : Fin 4 → ℝ) i = 0 := by
  constructor
  · rintro ⟨w, h1, h2, h3⟩
    refine ⟨⟨w, h1, h2⟩, ?_⟩
    rwa [weights_unique unit_solid h1 (unit_point x)] at h3
  · rintro ⟨⟨w, h1, h2⟩, h3⟩
    refine ⟨w, h1, h2, ?_⟩
    rwa [weights_unique unit_solid h1 (unit_point x)]

theorem unit_at (x y z : ℝ) : Inside unit ![x, y, z] ↔ 0 ≤ 1 - x - y - z ∧ 0 ≤ x ∧ 0 ≤ y ∧ 0 ≤ z :=
  unit_inside ![x, y, z]

theorem unit_interior {x y z : ℝ} (h0 : 0 < 1 - x - y - z) (h1 : 0 < x) (h2 : 0 < y) (h3 : 0 < z) :
    Interior unit ![x, y, z] := by
  refine ⟨_, unit_point _, fun j => ?_⟩
  fin_cases j
  exacts [h0, h1, h2, h3]

/-- A blade parallel to the first axis. -/
theorem along_x (a b y z t : ℝ) : along ![a, y, z] ![b, y, z] t = ![a + t * (b - a), y, z] := by
  funext i
  fin_cases i <;> simp [along]

theorem offEdges_x {a b y z : ℝ} (hy : 0 < y) (hz : 0 < z) (hyz : y + z < 1) :
    OffEdges unit ![a, y, z] ![b, y, z] := by
  intro t _ _ i j hi hj
  rw [along_x, unit_side] at hi hj
  obtain ⟨-, hi⟩ := hi
  obtain ⟨-, hj⟩ := hj
  fin_cases i <;> fin_cases j <;> simp at hi hj ⊢ <;> linarith

theorem offPlanes_x {a b y z : ℝ} (hy : 0 < y) (hz : 0 < z) (ha : a ≠ 0) (hab : a ≠ b) :
    OffPlanes unit ![a, y, z] ![b, y, z] := by
  rintro i ⟨h, h'⟩
  rw [inPlane_iff unit_solid (unit_point _)] at h h'
  fin_cases i
  · simp at h h'
    exact hab (by linarith)
  · exact ha h
  · exact hy.ne' h
  · exact hz.ne' h

theorem clip_x {a b y z : ℝ} (hy : 0 ≤ y) (hz : 0 ≤ z) (t : ℝ) : Clip unit ![a, y, z] ![b, y, z] t ↔
    0 ≤ t ∧ t ≤ 1 ∧ 0 ≤ a + t * (b - a) ∧ a + t * (b - a) ≤ 1 - y - z := by
  unfold Clip
  rw [along_x, unit_inside]
  simp only [Matrix.cons_val_zero, Matrix.cons_val_one, Matrix.cons_val]
  constructor
  · rintro ⟨h1, h2, h3, h4, -, -⟩
    exact ⟨h1, h2, h4, by linarith⟩
  · rintro ⟨h1, h2, h3, h4⟩
    exact ⟨h1, h2, by linarith, h3, hy, hz⟩

/-- A blade through the cell. -/
example (hs : Regular solve) :
    let rs := segment solve unitFaces ![-1, 1 / 4, 1 / 8] (![1, 1 / 4, 1 / 8] - ![-1, 1 / 4, 1 / 8])
    ∀ t, rs.1 ≤ t ∧ t ≤ rs.2 ↔ 1 / 2 ≤ t ∧ t ≤ 13 / 16 := by
  intro rs t
  have h := chord_partial unit_solid hs unit_sides unit_all
    (offPlanes_x (a := -1) (b := 1) (y := 1 / 4) (z := 1 / 8) (by norm_num) (by norm_num) (by norm_num) (by norm_num))
    (offEdges_x (by norm_num) (by norm_num) (by norm_num)) (by rw [unit_at]; norm_num)
    (by rw [unit_at]; norm_num)
  have hc := clip_x (a := -1) (b := 1) (y := 1 / 4) (z := 1 / 8) (by norm_num) (by norm_num)
  rw [← h.2 (h.1.1 ⟨1 / 2, (hc _).2 (by norm_num)⟩) t, hc]
  constructor
  · rintro ⟨-, -, h1, h2⟩
    constructor <;> linarith
  · rintro ⟨h1, h2⟩
    exact ⟨by linarith, by linarith, by linarith, by linarith⟩

/-- A blade that starts in the cell and leaves it at `3 / 4`: the forces are deposited from `3 / 4` on. -/
theorem starts_inside (hs : Regular solve) :
    (∀ t, Clip unit ![1 / 4, 1 / 4, 1 / 8] ![3 / 4, 1 / 4, 1 / 8] t ↔ 0 ≤ t ∧ t ≤ 3 / 4) ∧
    segment solve unitFaces ![1 / 4, 1 / 4, 1 / 8] (![3 / 4, 1 / 4, 1 / 8] - ![1 / 4, 1 / 4, 1 / 8]) = (3 / 4, 1) := by
  have hc : ∀ t, Clip unit ![1 / 4, 1 / 4, 1 / 8] ![3 / 4, 1 / 4, 1 / 8] t ↔ 0 ≤ t ∧ t ≤ 3 / 4 := by
    intro t
    rw [clip_x (by norm_num) (by norm_num)]
    constructor
    · rintro ⟨h1, h2, h3, h4⟩
      exact ⟨h1, by linarith⟩
    · rintro ⟨h1, h2⟩
      exact ⟨by linarith, by linarith, by linarith, by linarith⟩
  refine ⟨hc, ?_⟩
  obtain ⟨s, s0, s1, h, e⟩ := inner_start (solve := solve) (p := ![1 / 4, 1 / 4, 1 / 8]) (q := ![3 / 4, 1 / 4, 1 / 8])
    unit_solid hs unit_sides unit_all (offEdges_x (by norm_num) (by norm_num) (by norm_num))
    (unit_interior (by norm_num) (by norm_num) (by norm_num) (by norm_num)) (by rw [unit_at]; norm_num)
  have hs34 : s = 3 / 4 := by
    have h1 := (hc s).1 ((h s).2 ⟨s0.le, le_rfl⟩)
    have h2 := (h (3 / 4)).1 ((hc (3 / 4)).2 (by norm_num))
    linarith [h1.2, h2.2]
  rw [e, hs34, if_neg (by norm_num)]

/-- A blade that enters the cell at `1 / 3` and ends there: the forces are deposited before `1 / 3`. -/
theorem ends_inside (hs : Regular solve) :
    (∀ t, Clip unit ![-1 / 4, 1 / 4, 1 / 8] ![1 / 2, 1 / 4, 1 / 8] t ↔ 1 / 3 ≤ t ∧ t ≤ 1) ∧
    segment solve unitFaces ![-1 / 4, 1 / 4, 1 / 8] (![1 / 2, 1 / 4, 1 / 8] - ![-1 / 4, 1 / 4, 1 / 8]) =
      (0, 1 / 3) := by
  have hc : ∀ t, Clip unit ![-1 / 4, 1 / 4, 1 / 8] ![1 / 2, 1 / 4, 1 / 8] t ↔ 1 / 3 ≤ t ∧ t ≤ 1 := by
    intro t
    rw [clip_x (by norm_num) (by norm_num)]
    constructor
    · rintro ⟨h1, h2, h3, h4⟩
      exact ⟨by linarith, h2⟩
    · rintro ⟨h1, h2⟩
      exact ⟨by linarith, by linarith, by linarith, by linarith⟩
  refine ⟨hc, ?_⟩
  obtain ⟨s, s0, s1, h, e⟩ := inner_end (solve := solve) (p := ![-1 / 4, 1 / 4, 1 / 8]) (q := ![1 / 2, 1 / 4, 1 / 8])
    unit_solid hs unit_sides unit_all (offEdges_x (by norm_num) (by norm_num) (by norm_num))
    (by rw [unit_at]; norm_num) (unit_interior (by norm_num) (by norm_num) (by norm_num) (by norm_num))
  have hs34 : s = 1 / 3 := by
    have h1 := (hc s).1 ((h s).2 ⟨le_rfl, s1.le⟩)
    have h2 := (h (1 / 3)).1 ((hc (1 / 3)).2 (by norm_num))
    linarith [h1.1, h2.1]
  rw [e, hs34, if_pos (by norm_num)]

/-- A blade that enters through an edge: it is found twice at the same point, and the exit is not looked for. -/
theorem through_edge (hs : Regular solve) :
    (∀ t, Clip unit ![-1, -1, 1 / 4] ![1, 1, 1 / 4] t ↔ 1 / 2 ≤ t ∧ t ≤ 11 / 16) ∧
    segment solve unitFaces ![-1, -1, 1 / 4] (![1, 1, 1 / 4] - ![-1, -1, 1 / 4]) = (1 / 2, 1 / 2) := by
  have ha : ∀ t : ℝ, along ![-1, -1, 1 / 4] ![1, 1, 1 / 4] t = ![2 * t - 1, 2 * t - 1, 1 / 4] := by
    intro t
    funext i
    fin_cases i <;> simp [along] <;> ring
  have ho : OffPlanes unit ![-1, -1, 1 / 4] ![1, 1, 1 / 4] := by
    rintro i ⟨h, -⟩
    rw [inPlane_iff unit_solid (unit_point _)] at h
    have h : (![1 - -1 - -1 - 1 / 4, -1, -1, 1 / 4] : Fin 4 → ℝ) i = 0 := h
    fin_cases i <;> simp at h <;> norm_num at h
  constructor
  · intro t
    unfold Clip
    rw [ha, unit_inside]
    simp only [Matrix.cons_val_zero, Matrix.cons_val_one, Matrix.cons_val]
    constructor
    · rintro ⟨h1, h2, h3, h4, h5, h6⟩
      constructor <;> linarith
    · rintro ⟨h1, h2⟩
      exact ⟨by linarith, by linarith, by linarith, by linarith, by linarith, by norm_num⟩
  · have h12 : Inside unit ![2 * (1 / 2) - 1, 2 * (1 / 2) - 1, 1 / 4] := by rw [unit_at]; norm_num
    have r1 := (ratio_spec (solve := solve) unit_solid hs ho (i := 1) (f := ⟨unit 0, unit 2, unit 3⟩)
      ⟨0, 2, 3, by decide, rfl⟩ (1 / 2)).2 ⟨by norm_num, by norm_num, by
        rw [ha, unit_side]; exact ⟨h12, by simp⟩⟩
    have r2 := (ratio_spec (solve := solve) unit_solid hs ho (i := 2) (f := ⟨unit 0, unit 1, unit 3⟩)
      ⟨0, 1, 3, by decide, rfl⟩ (1 / 2)).2 ⟨by norm_num, by norm_num, by
        rw [ha, unit_side]; exact ⟨h12, by simp⟩⟩
    rw [segment_hits, unitFaces, List.map_cons, List.map_cons, r1.2, r2.2,
      List.filter_cons_of_pos (by simp only [decide_eq_true_eq]; exact ⟨by norm_num, by norm_num⟩),
      List.filter_cons_of_pos (by simp only [decide_eq_true_eq]; exact ⟨by norm_num, by norm_num⟩)]
    simp only [fromHits, min_self, max_self]

/-- A short blade in the middle of the cell. -/
example (hs : Regular solve) :
    segment solve unitFaces ![1 / 4, 1 / 4, 1 / 8] (![1 / 2, 1 / 4, 1 / 8] - ![1 / 4, 1 / 4, 1 / 8]) = (-1, -1) :=
  (inner_both unit_solid hs unit_sides (unit_interior (by norm_num) (by norm_num) (by norm_num) (by norm_num))
    (unit_interior (by norm_num) (by norm_num) (by norm_num) (by norm_num))).2

/-- A cell whose side `x = 0` is on the boundary. -/
example (hs : Regular solve) : ∃ r s, r < s ∧
    (∀ t, Clip unit ![-1, 1 / 4, 1 / 8] ![1, 1 / 4, 1 / 8] t ↔ r ≤ t ∧ t ≤ s) ∧
    segment solve unitFaces.tail ![-1, 1 / 4, 1 / 8] (![1, 1 / 4, 1 / 8] - ![-1, 1 / 4, 1 / 8]) ≠ (r, s) :=
  boundary_side (order := [2, 3, 0]) unit_solid hs ⟨by decide, (List.forall₂_cons.1 unit_sides.2).2⟩ 1 (by decide)
    (by decide)
    (offPlanes_x (by norm_num) (by norm_num) (by norm_num) (by norm_num))
    (offEdges_x (by norm_num) (by norm_num) (by norm_num)) (by rw [unit_at]; norm_num)
    (by rw [unit_at]; norm_num) (1 / 2) (by norm_num) (by norm_num) (by
      rw [along_x, unit_side, unit_at]; exact ⟨by norm_num, by simp; norm_num⟩)

/-- There are solvers as required. -/
example : ∃ solve : Columns ℝ → Vec → Vec, Regular solve := by
  classical
  exact ⟨fun m b => if h : Intersect.determinant m ≠ 0 then (times_surj h b).choose else 0, fun m b h => by
    dsimp only; rw [dif_pos h]; exact (times_surj h b).choose_spec⟩

end MiniCFD.Source
