import Verif.Spec.Checkpoint

/-! Lemmas for C75. -/

namespace MiniCFD.Checkpoint

open MiniCFD.Spec.Checkpoint

variable {V : Type} {k : Nat}

theorem fold_prefix {α σ : Type} (P : List α → σ → Prop) (step : σ → α → Option σ) (l : List α) (s : σ) (h0 : P [] s)
    (h : ∀ pre a post s, l = pre ++ a :: post → P pre s → ∃ s', step s a = some s' ∧ P (pre ++ [a]) s') :
    ∃ s', l.foldlM step s = some s' ∧ P l s' := by
  have key : ∀ (post pre : List α) (s : σ), l = pre ++ post → P pre s →
      ∃ s', post.foldlM step s = some s' ∧ P l s' := by
    intro post
    induction post with
    | nil => intro pre s e hp; rw [List.append_nil] at e; exact ⟨s, rfl, e ▸ hp⟩
    | cons a post ih =>
      intro pre s e hp
      obtain ⟨s1, h1, h2⟩ := h pre a post s e hp
      obtain ⟨s2, h3, h4⟩ := ih (pre ++ [a]) s1 (by simp [e]) h2
      exact ⟨s2, by simp [List.foldlM_cons, h1, h3], h4⟩
  exact key l [] s rfl h0

theorem mem_upTo {n i : Nat} : i ∈ upTo n ↔ 1 ≤ i ∧ i ≤ n := by
  simp only [upTo, List.mem_map, List.mem_range]
  constructor
  · rintro ⟨j, hj, rfl⟩
    omega
  · intro h
    exact ⟨i - 1, by omega, by omega⟩

theorem upTo_nodup (n : Nat) : (upTo n).Nodup :=
  (List.nodup_range).map fun a b h => by simpa using h

/-! ### Sections -/

theorem put_spec {rows : List (List V)} {r c : Nat} {v : V} {row : List V} (hr : rows[r]? = some row)
    (hc : c < row.length) : ∃ rows', put rows r c v = some rows' ∧ rows'.map List.length = rows.map List.length ∧
      look rows' r c = some v ∧ ∀ r' c', (r', c') ≠ (r, c) → look rows' r' c' = look rows r' c' := by
  obtain ⟨hlt, hrow⟩ := List.getElem?_eq_some_iff.1 hr
  refine ⟨rows.set r (row.set c v), by simp [put, hr, hc], ?_, ?_, ?_⟩
  · apply List.ext_getElem
    · simp
    · intro i h1 h2
      simp only [List.getElem_map, List.getElem_set]
      split_ifs with e
      · subst e
        simp [hrow]
      · rfl
  · simp [look, hlt, hc]
  · intro r' c' hne
    unfold look
    by_cases e : r' = r
    · subst e
      have : c ≠ c' := fun e => hne (by rw [e])
      simp [hlt, hrow, List.getElem?_set_ne this]
    · rw [List.getElem?_set_ne (fun h => e h.symm)]

/-- A loop that fills entries. -/
theorem fill {ι : Type} (at' : ι → Nat × Nat) (src : ι → Option V) (l : List ι) (rows : List (List V))
    (hat : ∀ a ∈ l, ∃ row, rows[(at' a).1]? = some row ∧ (at' a).2 < row.length) (hsrc : ∀ a ∈ l, ∃ v, src a = some v)
    (hinj : ∀ a ∈ l, ∀ b ∈ l, at' a = at' b → a = b) :
    ∃ rows', l.foldlM (fun rows a => do
        let v ← src a
        put rows (at' a).1 (at' a).2 v) rows = some rows' ∧
      rows'.map List.length = rows.map List.length ∧ ∀ a ∈ l, look rows' (at' a).1 (at' a).2 = src a := by
  refine fold_prefix (fun pre rows' => rows'.map List.length = rows.map List.length ∧
    ∀ a ∈ pre, look rows' (at' a).1 (at' a).2 = src a) _ l rows ⟨rfl, fun a ha => absurd ha List.not_mem_nil⟩ ?_
  rintro pre a post rows1 e ⟨h1, h2⟩
  have ha : a ∈ l := by simp [e]
  obtain ⟨v, hv⟩ := hsrc a ha
  obtain ⟨row, hr, hc⟩ := hat a ha
  have : ∃ row1, rows1[(at' a).1]? = some row1 ∧ (at' a).2 < row1.length := by
    have h3 : (rows1.map List.length)[(at' a).1]? = (rows.map List.length)[(at' a).1]? := by rw [h1]
    rw [List.getElem?_map, List.getElem?_map, hr] at h3
    cases h4 : rows1[(at' a).1]? with
    | none => simp [h4] at h3
    | some row1 =>
      refine ⟨row1, rfl, ?_⟩
      rw [h4] at h3
      simp only [Option.map_some, Option.some.injEq] at h3
      omega
  obtain ⟨row1, hr1, hc1⟩ := this
  obtain ⟨rows2, g1, g2, g3, g4⟩ := put_spec (v := v) hr1 hc1
  refine ⟨rows2, by simp [hv, g1], g2.trans h1, ?_⟩
  intro b hb
  rcases List.mem_append.1 hb with hb | hb
  · by_cases hab : at' b = at' a
    · obtain rfl := hinj b (by simp [e, hb]) a ha hab
      rw [g3, hv]
    · rw [g4 _ _ (by rwa [Prod.mk.eta, Prod.mk.eta]), h2 b hb]
  · obtain rfl := List.mem_singleton.1 hb
    rw [g3, hv]

theorem mem_pairs {m k : Nat} {p : Nat × Nat} : p ∈ pairs m k ↔ p.1 < m ∧ p.2 < k := by
  obtain ⟨i, f⟩ := p
  simp [pairs]

theorem lengths {rows rows' : List (List V)} (h : rows'.map List.length = rows.map List.length) {n : Nat}
    (hn : ∀ row ∈ rows, row.length = n) : rows'.length = rows.length ∧ ∀ row ∈ rows', row.length = n := by
  constructor
  · simpa using congrArg List.length h
  · intro row hr
    have : row.length ∈ rows'.map List.length := List.mem_map_of_mem hr
    rw [h] at this
    obtain ⟨row', h1, h2⟩ := List.mem_map.1 this
    rw [← h2, hn row' h1]

theorem look_some {rows : List (List V)} {r c n : Nat} (hr : r < rows.length) (hn : ∀ row ∈ rows, row.length = n)
    (hc : c < n) : ∃ v, look rows r c = some v := by
  unfold look
  rw [List.getElem?_eq_getElem hr]
  exact ⟨_, by rw [Option.bind_some, List.getElem?_eq_getElem (by rw [hn _ (List.getElem_mem hr)]; exact hc)]⟩

theorem gather_spec {s : Sect V} (h : Full k s) : ∃ s', s.gather k = some s' ∧ Full k s' ∧ s'.head = s.head ∧
    s'.size = s.size ∧ s'.cells = s.cells ∧ ∀ j f, j < s.size → f < k → look s'.fields f j = look s.cells j f := by
  obtain ⟨rows', h1, h2, h3⟩ := fill (fun p : Nat × Nat => (p.2, p.1)) (fun p => look s.cells p.1 p.2) (pairs s.size k)
    s.fields (by
      rintro ⟨i, f⟩ hp
      obtain ⟨hi, hf⟩ := mem_pairs.1 hp
      have hf' : f < s.fields.length := by rw [h.fields]; exact hf
      exact ⟨_, List.getElem?_eq_getElem hf', by rw [h.field _ (List.getElem_mem hf')]; exact hi⟩) (by
      rintro ⟨i, f⟩ hp
      obtain ⟨hi, hf⟩ := mem_pairs.1 hp
      exact look_some (by rw [h.cells]; exact hi) h.coeff hf) (by
      rintro ⟨a, b⟩ - ⟨c, d⟩ - e
      simp only [Prod.mk.injEq] at e ⊢
      exact ⟨e.2, e.1⟩)
  obtain ⟨l1, l2⟩ := lengths h2 h.field
  refine ⟨{ s with fields := rows' }, ?_, ⟨h.cells, h.coeff, l1.trans h.fields, l2⟩, rfl, rfl, rfl, ?_⟩
  · unfold Sect.gather
    rw [show (pairs s.size k).foldlM (fun fields p => do
      let v ← look s.cells p.1 p.2
      put fields p.2 p.1 v) s.fields = some rows' from h1]
    rfl
  · intro j f hj hf
    exact h3 (j, f) (mem_pairs.2 ⟨hj, hf⟩)

theorem scatter_spec {s : Sect V} (h : Full k s) : ∃ s', s.scatter k = some s' ∧ Full k s' ∧ s'.head = s.head ∧
    s'.size = s.size ∧ s'.fields = s.fields ∧ ∀ j f, j < s.size → f < k → look s'.cells j f = look s.fields f j := by
  obtain ⟨rows', h1, h2, h3⟩ := fill (fun p : Nat × Nat => (p.1, p.2)) (fun p => look s.fields p.2 p.1) (pairs s.size k)
    s.cells (by
      rintro ⟨i, f⟩ hp
      obtain ⟨hi, hf⟩ := mem_pairs.1 hp
      have hi' : i < s.cells.length := by rw [h.cells]; exact hi
      exact ⟨_, List.getElem?_eq_getElem hi', by rw [h.coeff _ (List.getElem_mem hi')]; exact hf⟩) (by
      rintro ⟨i, f⟩ hp
      obtain ⟨hi, hf⟩ := mem_pairs.1 hp
      exact look_some (by rw [h.fields]; exact hf) h.field hi) (by
      rintro ⟨a, b⟩ - ⟨c, d⟩ - e
      simpa using e)
  obtain ⟨l1, l2⟩ := lengths h2 h.coeff
  refine ⟨{ s with cells := rows' }, ?_, ⟨l1.trans h.cells, l2, h.fields, h.field⟩, rfl, rfl, rfl, ?_⟩
  · unfold Sect.scatter
    rw [show (pairs s.size k).foldlM (fun cells p => do
      let v ← look s.fields p.2 p.1
      put cells p.1 p.2 v) s.cells = some rows' from h1]
    rfl
  · intro j f hj hf
    exact h3 (j, f) (mem_pairs.2 ⟨hj, hf⟩)

/-! ### Zones and ranks -/

theorem find_put (α : Type) (m : Map α) (i j : Nat) (a : α) :
    (m.put i a).find j = if j = i then some a else m.find j := rfl

theorem eachSect_spec {f : Sect V → Option (Sect V)} {zone : Map (Sect V)}
    (h : ∀ i, 1 ≤ i → i ≤ zone.size → ∃ s s', zone.find i = some s ∧ f s = some s') :
    ∃ zone', eachSect f zone = some zone' ∧ zone'.size = zone.size ∧
      (∀ i, 1 ≤ i → i ≤ zone.size → ∃ s s', zone.find i = some s ∧ f s = some s' ∧ zone'.find i = some s') ∧
      ∀ i, ¬ (1 ≤ i ∧ i ≤ zone.size) → zone'.find i = zone.find i := by
  obtain ⟨zone', h1, h2, h3, h4⟩ := fold_prefix (fun pre (zone' : Map (Sect V)) => zone'.size = zone.size ∧
    (∀ i ∈ pre, ∃ s s', zone.find i = some s ∧ f s = some s' ∧ zone'.find i = some s') ∧
      ∀ i, i ∉ pre → zone'.find i = zone.find i) (fun zone i => do
    let s ← zone.find i
    let s ← f s
    some (zone.put i s)) (upTo zone.size) zone ⟨rfl, fun i hi => absurd hi List.not_mem_nil, fun i _ => rfl⟩ (by
      rintro pre i post zone1 e ⟨g1, g2, g3⟩
      have hi : i ∈ upTo zone.size := by simp [e]
      obtain ⟨s, s', hs, hf⟩ := h i (mem_upTo.1 hi).1 (mem_upTo.1 hi).2
      have hnd := upTo_nodup zone.size
      rw [e] at hnd
      have hni : i ∉ pre := fun hm => List.disjoint_of_nodup_append hnd hm List.mem_cons_self
      have hz : zone1.find i = some s := by rw [g3 i hni, hs]
      refine ⟨zone1.put i s', by simp [hz, hf], g1, ?_, ?_⟩
      · intro j hj
        rw [find_put]
        by_cases hji : j = i
        · subst hji
          exact ⟨s, s', hs, hf, by rw [if_pos rfl]⟩
        · rw [if_neg hji]
          rcases List.mem_append.1 hj with hj | hj
          · exact g2 j hj
          · exact absurd (List.mem_singleton.1 hj) hji
      · intro j hj
        rw [List.mem_append, List.mem_singleton, not_or] at hj
        rw [find_put, if_neg hj.2, g3 j hj.1])
  exact ⟨zone', h1, h2, fun i hi hi' => h3 i (mem_upTo.2 ⟨hi, hi'⟩), fun i hi => h4 i fun hm => hi (mem_upTo.1 hm)⟩

theorem eachZone_spec {missing : Map (Map (Sect V)) → Nat → Option (Map (Map (Sect V)))}
    {g : Nat → Map (Sect V) → Option (Map (Sect V))} {r : Rank V}
    (h : ∀ z, 1 ≤ z → z ≤ r.zones → ∃ zone zone', r.cells.find z = some zone ∧ g z zone = some zone') :
    ∃ r', eachZone missing g r = some r' ∧ r'.zones = r.zones ∧
      ∀ z, 1 ≤ z → z ≤ r.zones → ∃ zone zone', r.cells.find z = some zone ∧ g z zone = some zone' ∧
        r'.cells.find z = some zone' := by
  obtain ⟨cells', h1, h2, -⟩ := fold_prefix (fun pre (cells' : Map (Map (Sect V))) =>
    (∀ z ∈ pre, ∃ zone zone', r.cells.find z = some zone ∧ g z zone = some zone' ∧ cells'.find z = some zone') ∧
      ∀ z, z ∉ pre → cells'.find z = r.cells.find z) (zoneStep missing g) (upTo r.zones) r.cells ⟨fun i hi => absurd hi List.not_mem_nil, fun i _ => rfl⟩ (by
      rintro pre z post cells1 e ⟨g2, g3⟩
      have hz : z ∈ upTo r.zones := by simp [e]
      obtain ⟨zone, zone', hs, hf⟩ := h z (mem_upTo.1 hz).1 (mem_upTo.1 hz).2
      have hnd := upTo_nodup r.zones
      rw [e] at hnd
      have hni : z ∉ pre := fun hm => List.disjoint_of_nodup_append hnd hm List.mem_cons_self
      have hz : cells1.find z = some zone := by rw [g3 z hni, hs]
      refine ⟨cells1.put z zone', by simp [zoneStep, hz, hf], ?_, ?_⟩
      · intro j hj
        rw [find_put]
        by_cases hji : j = z
        · subst hji
          exact ⟨zone, zone', hs, hf, by rw [if_pos rfl]⟩
        · rw [if_neg hji]
          rcases List.mem_append.1 hj with hj | hj
          · exact g2 j hj
          · exact absurd (List.mem_singleton.1 hj) hji
      · intro j hj
        rw [List.mem_append, List.mem_singleton, not_or] at hj
        rw [find_put, if_neg hj.2, g3 j hj.1])
  refine ⟨{ r with cells := cells' }, ?_, rfl, fun z hz hz' => h2 z (mem_upTo.2 ⟨hz, hz'⟩)⟩
  unfold eachZone
  rw [h1]
  rfl

/-- What a loop over all zones and sections does. -/
structure Done (f : Nat → Sect V → Sect V → Prop) (k : Nat) (r r' : Rank V) : Prop where
  numbered : Numbered k r'
  zones : r'.zones = r.zones
  sizes : ∀ z, 1 ≤ z → z ≤ r.zones → (r'.cells.find z).map Map.size = (r.cells.find z).map Map.size
  sects : ∀ z i s', 1 ≤ z → z ≤ r.zones → IsSect r' z i s' → ∃ s, IsSect r z i s ∧ f z s s'
  back : ∀ z i s, 1 ≤ z → z ≤ r.zones → IsSect r z i s → ∃ s', IsSect r' z i s'

theorem each_done {missing : Map (Map (Sect V)) → Nat → Option (Map (Map (Sect V)))} {f : Nat → Sect V → Sect V → Prop}
    {g : Nat → Map (Sect V) → Option (Map (Sect V))} {r : Rank V} (hr : Numbered k r)
    (hf : ∀ z i s s', 1 ≤ z → z ≤ r.zones → IsSect r z i s → f z s s' → Full k s')
    (hg : ∀ z zone, 1 ≤ z → z ≤ r.zones → r.cells.find z = some zone → ∃ zone', g z zone = some zone' ∧
      zone'.size = zone.size ∧ (∀ i, 1 ≤ i → i ≤ zone.size → ∃ s s', zone.find i = some s ∧ f z s s' ∧
        zone'.find i = some s') ∧ ∀ i, ¬ (1 ≤ i ∧ i ≤ zone.size) → zone'.find i = zone.find i) :
    ∃ r', eachZone missing g r = some r' ∧ Done f k r r' := by
  obtain ⟨r', h1, h2, h3⟩ := eachZone_spec (missing := missing) (g := g) (r := r) fun z hz hz' => by
    obtain ⟨zone, g1, -⟩ := hr.zones z hz hz'
    obtain ⟨zone', g2, -⟩ := hg z zone hz hz' g1
    exact ⟨zone, zone', g1, g2⟩
  have key : ∀ z, 1 ≤ z → z ≤ r.zones → ∃ zone zone', r.cells.find z = some zone ∧ r'.cells.find z = some zone' ∧
      zone'.size = zone.size ∧ (∀ i, (1 ≤ i ∧ i ≤ zone.size) ↔ ∃ s, zone.find i = some s) ∧
      (∀ i, 1 ≤ i → i ≤ zone.size → ∃ s s', zone.find i = some s ∧ f z s s' ∧ zone'.find i = some s') ∧
      ∀ i, ¬ (1 ≤ i ∧ i ≤ zone.size) → zone'.find i = none := by
    intro z hz hz'
    obtain ⟨zone, zone', g1, g2, g3⟩ := h3 z hz hz'
    obtain ⟨zone0, g4, g5⟩ := hr.zones z hz hz'
    rw [g1, Option.some.injEq] at g4
    subst g4
    obtain ⟨zone1, g6, g7, g8, g9⟩ := hg z zone hz hz' g1
    rw [g2, Option.some.injEq] at g6
    subst g6
    refine ⟨zone, zone', g1, g3, g7, g5, g8, fun i hi => ?_⟩
    rw [g9 i hi]
    cases h : zone.find i with
    | none => rfl
    | some s => exact absurd ((g5 i).2 ⟨s, h⟩) hi
  have sects : ∀ z i s', 1 ≤ z → z ≤ r.zones → IsSect r' z i s' → ∃ s, IsSect r z i s ∧ f z s s' := by
    rintro z i s' hz hz' ⟨zone1, e1, e2⟩
    obtain ⟨zone, zone', g1, g2, g3, g4, g5, g6⟩ := key z hz hz'
    rw [g2, Option.some.injEq] at e1
    subst e1
    by_cases hi : 1 ≤ i ∧ i ≤ zone.size
    · obtain ⟨s, s1, l1, l2, l3⟩ := g5 i hi.1 hi.2
      rw [e2, Option.some.injEq] at l3
      subst l3
      exact ⟨s, ⟨zone, g1, l1⟩, l2⟩
    · rw [g6 i hi] at e2
      exact absurd e2 (by simp)
  refine ⟨r', h1, ⟨⟨fun z hz hz' => ?_, fun z i s' hz hz' hs => ?_⟩, h2, fun z hz hz' => ?_, sects, ?_⟩⟩
  · rw [h2] at hz'
    obtain ⟨zone, zone', g1, g2, g3, g4, g5, g6⟩ := key z hz hz'
    refine ⟨zone', g2, fun i => ?_⟩
    rw [g3]
    constructor
    · intro hi
      obtain ⟨s, s1, l1, l2, l3⟩ := g5 i hi.1 hi.2
      exact ⟨s1, l3⟩
    · rintro ⟨s, hs⟩
      by_contra hi
      rw [g6 i hi] at hs
      exact absurd hs (by simp)
  · rw [h2] at hz'
    obtain ⟨s, l1, l2⟩ := sects z i s' hz hz' hs
    exact hf z i s s' hz hz' l1 l2
  · obtain ⟨zone, zone', g1, g2, g3, -⟩ := key z hz hz'
    rw [g1, g2, Option.map_some, Option.map_some, g3]
  · rintro z i s hz hz' ⟨zone1, e1, e2⟩
    obtain ⟨zone, zone', g1, g2, g3, g4, g5, g6⟩ := key z hz hz'
    rw [g1, Option.some.injEq] at e1
    subst e1
    obtain ⟨hi, hi'⟩ := (g4 i).2 ⟨s, e2⟩
    obtain ⟨s0, s1, l1, l2, l3⟩ := g5 i hi hi'
    exact ⟨s1, zone', g2, l3⟩

theorem gather_done {r : Rank V} (hr : Numbered k r) : ∃ r', gatherSolutions k r = some r' ∧
    Done (fun _ s s' => s.gather k = some s') k r r' := by
  refine each_done hr (fun z i s s' hz hz' hs h => ?_) fun z zone hz hz' hfind => ?_
  · obtain ⟨s1, g1, g2, -⟩ := gather_spec (hr.full z i s hz hz' hs)
    rw [h, Option.some.injEq] at g1
    exact g1 ▸ g2
  · refine eachSect_spec fun i hi hi' => ?_
    obtain ⟨zone0, g1, g2⟩ := hr.zones z hz hz'
    rw [hfind, Option.some.injEq] at g1
    subst g1
    obtain ⟨s, hs⟩ := (g2 i).1 ⟨hi, hi'⟩
    obtain ⟨s', g1, -⟩ := gather_spec (hr.full z i s hz hz' ⟨zone, hfind, hs⟩)
    exact ⟨s, s', hs, g1⟩

theorem scatter_done {r : Rank V} (hr : Numbered k r) : ∃ r', scatterSolutions k r = some r' ∧
    Done (fun _ s s' => s.scatter k = some s') k r r' := by
  refine each_done hr (fun z i s s' hz hz' hs h => ?_) fun z zone hz hz' hfind => ?_
  · obtain ⟨s1, g1, g2, -⟩ := scatter_spec (hr.full z i s hz hz' hs)
    rw [h, Option.some.injEq] at g1
    exact g1 ▸ g2
  · refine eachSect_spec fun i hi hi' => ?_
    obtain ⟨zone0, g1, g2⟩ := hr.zones z hz hz'
    rw [hfind, Option.some.injEq] at g1
    subst g1
    obtain ⟨s, hs⟩ := (g2 i).1 ⟨hi, hi'⟩
    obtain ⟨s', g1, -⟩ := scatter_spec (hr.full z i s hz hz' ⟨zone, hfind, hs⟩)
    exact ⟨s, s', hs, g1⟩

/-- The section after reading. -/
def ReadFrom (k : Nat) (file : File V) (z : Nat) (s s' : Sect V) : Prop :=
  s'.head = s.head ∧ s'.size = s.size ∧ s'.cells = s.cells ∧ s'.fields.length = s.fields.length ∧
    ∀ f ∈ upTo k, ∃ vals, readData z f s.head s.size file = some vals ∧ s'.fields[f - 1]? = some vals

theorem readData_length {z f head size : Nat} {file : File V} {vals : List V}
    (h : readData z f head size file = some vals) : vals.length = size ∧ ∀ j, j < size → vals[j]? = file z f (head + j) := by
  have key : ∀ (l : List Nat) (vals : List V), l.mapM (fun j => file z f (head + j)) = some vals →
      vals.length = l.length ∧ ∀ j (hj : j < l.length), vals[j]? = file z f (head + l[j]) := by
    intro l
    induction l with
    | nil => intro vals h; cases h; exact ⟨rfl, fun j hj => absurd hj (Nat.not_lt_zero _)⟩
    | cons a l ih =>
      intro vals h
      simp only [List.mapM_cons, Option.bind_eq_bind, Option.bind_eq_some_iff, Option.pure_def,
        Option.some.injEq] at h
      obtain ⟨b, hb, l1, hl, rfl⟩ := h
      obtain ⟨h1, h2⟩ := ih l1 hl
      refine ⟨by simp [h1], fun j hj => ?_⟩
      cases j with
      | zero => simp [hb]
      | succ j => simpa using h2 j (by simpa using hj)
  obtain ⟨h1, h2⟩ := key _ _ h
  refine ⟨by simpa using h1, fun j hj => ?_⟩
  have := h2 j (by simpa using hj)
  simpa using this

theorem readData_some {z f head size : Nat} {file : File V} (h : ∀ j, j < size → ∃ v, file z f (head + j) = some v) :
    ∃ vals, readData z f head size file = some vals := by
  have key : ∀ l : List Nat, (∀ j ∈ l, ∃ v, file z f (head + j) = some v) →
      ∃ vals, l.mapM (fun j => file z f (head + j)) = some vals := by
    intro l
    induction l with
    | nil => intro _; exact ⟨[], rfl⟩
    | cons a l ih =>
      intro h
      obtain ⟨v, hv⟩ := h a List.mem_cons_self
      obtain ⟨vs, hvs⟩ := ih fun j hj => h j (List.mem_cons_of_mem _ hj)
      exact ⟨v :: vs, by simp [hv, hvs]⟩
  exact key _ fun j hj => h j (List.mem_range.1 hj)

theorem readFrom_full {file : File V} {z : Nat} {s s' : Sect V} (h : Full k s) (h' : ReadFrom k file z s s') :
    Full k s' := by
  obtain ⟨h1, h2, h3, h4, h5⟩ := h'
  refine ⟨by rw [h3, h2, h.cells], by rw [h3]; exact h.coeff, by rw [h4, h.fields], fun f hf => ?_⟩
  obtain ⟨i, hi, rfl⟩ := List.getElem_of_mem hf
  have hk : i < k := by rw [← h.fields, ← h4]; exact hi
  obtain ⟨vals, g1, g2⟩ := h5 (i + 1) (mem_upTo.2 ⟨by omega, by omega⟩)
  rw [Nat.add_sub_cancel, List.getElem?_eq_getElem hi, Option.some.injEq] at g2
  rw [g2, (readData_length g1).1, h2]

theorem read_done {file : File V} {r : Rank V} (hr : Numbered k r)
    (hfile : ∀ z i s, 1 ≤ z → z ≤ r.zones → IsSect r z i s → ∀ f ∈ upTo k, ∀ j, j < s.size →
      ∃ v, file z f (s.head + j) = some v) :
    ∃ r', readSolutions k file r = some r' ∧ Done (ReadFrom k file) k r r' := by
  refine each_done hr (fun z i s s' hz hz' hs h => readFrom_full (hr.full z i s hz hz' hs) h)
    fun z zone hz hz' hfind => ?_
  obtain ⟨zone0, g1, g2⟩ := hr.zones z hz hz'
  rw [hfind, Option.some.injEq] at g1
  subst g1
  obtain ⟨zone', h1, h2, h3, h4⟩ := fold_prefix (fun pre (zone' : Map (Sect V)) => zone'.size = zone.size ∧
    (∀ i, 1 ≤ i → i ≤ zone.size → ∃ s s', zone.find i = some s ∧ (s'.head = s.head ∧ s'.size = s.size ∧
      s'.cells = s.cells ∧ s'.fields.length = s.fields.length ∧ ∀ f ∈ pre, ∃ vals,
        readData z f s.head s.size file = some vals ∧ s'.fields[f - 1]? = some vals) ∧ zone'.find i = some s') ∧
      ∀ i, ¬ (1 ≤ i ∧ i ≤ zone.size) → zone'.find i = zone.find i)
    (fun zone f => eachSect (readSect z f file) zone) (upTo k) zone
    ⟨rfl, fun i hi hi' => by
      obtain ⟨s, hs⟩ := (g2 i).1 ⟨hi, hi'⟩
      exact ⟨s, s, hs, ⟨rfl, rfl, rfl, rfl, fun f hf => absurd hf List.not_mem_nil⟩, hs⟩, fun i _ => rfl⟩ (by
    rintro pre f post zone1 e ⟨l1, l2, l3⟩
    have hf : f ∈ upTo k := by simp [e]
    have hnd := upTo_nodup k
    rw [e] at hnd
    have hnf : f ∉ pre := fun hm => List.disjoint_of_nodup_append hnd hm List.mem_cons_self
    have hstep : ∀ i, 1 ≤ i → i ≤ zone.size → ∃ s s1 vals, zone.find i = some s ∧ zone1.find i = some s1 ∧
        (s1.head = s.head ∧ s1.size = s.size ∧ s1.cells = s.cells ∧ s1.fields.length = s.fields.length ∧
          ∀ f ∈ pre, ∃ vals, readData z f s.head s.size file = some vals ∧ s1.fields[f - 1]? = some vals) ∧
        readData z f s.head s.size file = some vals ∧ f - 1 < s1.fields.length ∧
        readSect z f file s1 = some { s1 with fields := s1.fields.set (f - 1) vals } := by
      intro i hi hi'
      obtain ⟨s, s1, m1, m2, m3⟩ := l2 i hi hi'
      have hs : IsSect r z i s := ⟨zone, hfind, m1⟩
      obtain ⟨vals, hv⟩ := readData_some (hfile z i s hz hz' hs f hf)
      have hlt : f - 1 < s1.fields.length := by
        rw [m2.2.2.2.1, (hr.full z i s hz hz' hs).fields]
        have := mem_upTo.1 hf
        omega
      refine ⟨s, s1, vals, m1, m3, m2, hv, hlt, ?_⟩
      simp only [readSect, m2.1, m2.2.1, hv, Option.bind_eq_bind, Option.bind_some, if_pos hlt]
    obtain ⟨zone2, n1, n2, n3, n4⟩ := eachSect_spec (f := readSect z f file) (zone := zone1) (by
      rw [l1]
      intro i hi hi'
      obtain ⟨s, s1, vals, m1, m2, m3, m4, m5, m6⟩ := hstep i hi hi'
      exact ⟨s1, _, m2, m6⟩)
    rw [l1] at n2 n3 n4
    refine ⟨zone2, n1, n2, fun i hi hi' => ?_, fun i hi => by rw [n4 i hi, l3 i hi]⟩
    obtain ⟨s, s1, vals, m1, m2, m3, m4, m5, m6⟩ := hstep i hi hi'
    obtain ⟨s1', s2, o1, o2, o3⟩ := n3 i hi hi'
    rw [m2, Option.some.injEq] at o1
    subst o1
    rw [m6, Option.some.injEq] at o2
    subst o2
    refine ⟨s, { s1 with fields := s1.fields.set (f - 1) vals }, m1, ⟨m3.1, m3.2.1, m3.2.2.1, by simp [m3.2.2.2.1], fun f' hf' => ?_⟩, o3⟩
    rcases List.mem_append.1 hf' with hf' | hf'
    · obtain ⟨vals', p1, p2⟩ := m3.2.2.2.2 f' hf'
      refine ⟨vals', p1, ?_⟩
      have hne : f - 1 ≠ f' - 1 := by
        have h1 := mem_upTo.1 hf
        have h2 := mem_upTo.1 (show f' ∈ upTo k by rw [e]; simp [hf'])
        have : f ≠ f' := fun e => hnf (e ▸ hf')
        omega
      simp only
      rw [List.getElem?_set_ne hne, p2]
    · obtain rfl := List.mem_singleton.1 hf'
      exact ⟨vals, m4, by simp [m5]⟩)
  exact ⟨zone', h1, h2, h3, h4⟩

end MiniCFD.Checkpoint
