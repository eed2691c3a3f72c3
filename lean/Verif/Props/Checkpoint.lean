import Verif.Lemmas.Checkpoint

/-!
# C75: a solution can be written and read back

Spec in `Verif.Spec.Checkpoint`.
-/

namespace MiniCFD.Checkpoint

open MiniCFD.Spec.Checkpoint

variable {V : Type} {k : Nat} {g : Solution V k}

/-- The vectors of a rank hold a solution. -/
def FieldsHold (g : Solution V k) (r : Rank V) : Prop :=
  ∀ z i s, 1 ≤ z → z ≤ r.zones → IsSect r z i s → ∀ j, j < s.size → ∀ f : Fin k,
    look s.fields f j = some (g z (s.head + j) f)

theorem gather_holds {r r' : Rank V} (hr : Numbered k r) (hg : Holds g r) (h : gatherSolutions k r = some r') :
    FieldsHold g r' ∧ Done (fun _ s s' => s.gather k = some s') k r r' := by
  obtain ⟨r1, h1, h2⟩ := gather_done hr
  rw [h, Option.some.injEq] at h1
  subst h1
  refine ⟨fun z i s' hz hz' hs j hj f => ?_, h2⟩
  rw [h2.zones] at hz'
  obtain ⟨s, g1, g2⟩ := h2.sects z i s' hz hz' hs
  obtain ⟨s1, l1, l2, l3, l4, l5, l6⟩ := gather_spec (hr.full z i s hz hz' g1)
  rw [g2, Option.some.injEq] at l1
  subst l1
  rw [l6 j f (l4 ▸ hj) f.2, l3]
  simp only [look, hg z i s hz hz' g1 j (l4 ▸ hj), Option.bind_some]
  simp

/-- What is in a file agrees with a solution. -/
def Consistent (g : Solution V k) (file : File V) : Prop :=
  ∀ z f c v, file z f c = some v → ∃ f' : Fin k, f = f' + 1 ∧ v = g z c f'

theorem consistent_create {keep : Bool} {z f : Nat} {file : File V} (h : Consistent g file) :
    Consistent g (create keep z f file) := by
  intro z' f' c v hv
  unfold create at hv
  split_ifs at hv
  · exact h z' f' c v hv
  · dsimp only at hv
    split_ifs at hv
    exact h z' f' c v hv

variable {ranks : List (Rank V)} {n : Nat → Nat} {keep : Bool}

theorem writeSect_spec {order : List Nat} {z i : Nat} {f : Fin k} {file : File V} (h : ∀ r ∈ ranks, Numbered k r)
    (hg : ∀ r ∈ ranks, FieldsHold g r) (hn : InZones n ranks) (ho : order.Perm (List.range ranks.length))
    (hi : ∀ r ∈ ranks, 1 ≤ z ∧ z ≤ r.zones ∧ ∃ s, IsSect r z i s) (hc : Consistent g file) :
    ∃ file', writeSect keep (n z) ranks order z (f + 1) i file = some file' ∧ Consistent g file' ∧
      (∀ z' f', (z', f') ≠ (z, f.val + 1) → file' z' f' = file z' f') ∧
      (keep = true → ∀ c, (∃ v, file z (f + 1) c = some v) → ∃ v, file' z (f + 1) c = some v) ∧
      ∀ c, Owned ranks z i c → ∃ v, file' z (f + 1) c = some v := by
  have hstep : ∀ r ∈ ranks, ∀ file : File V, Consistent g file → ∃ s zone vals file', r.cells.find z = some zone ∧
      zone.find i = some s ∧ s.fields[f.val + 1 - 1]? = some vals ∧
      writeData (n z) z (f + 1) s.head s.size vals file = some file' ∧ Consistent g file' ∧
      (∀ z' f', (z', f') ≠ (z, f.val + 1) → file' z' f' = file z' f') ∧
      (∀ c, (∃ v, file z (f + 1) c = some v) → ∃ v, file' z (f + 1) c = some v) ∧
      ∀ c, s.head ≤ c → c < s.head + s.size → ∃ v, file' z (f + 1) c = some v := by
    intro r hr file hc
    obtain ⟨hz, hz', s, zone, h1, h2⟩ := hi r hr
    have hs : IsSect r z i s := ⟨zone, h1, h2⟩
    have hfull := (h r hr).full z i s hz hz' hs
    have hf : f.val + 1 - 1 < s.fields.length := by rw [hfull.fields, Nat.add_sub_cancel]; exact f.2
    have hlen : (s.fields[f.val + 1 - 1]'hf).length = s.size := hfull.field _ (List.getElem_mem hf)
    have hval : ∀ j, j < s.size → (s.fields[f.val + 1 - 1]'hf)[j]? = some (g z (s.head + j) f) := by
      intro j hj
      have := hg r hr z i s hz hz' hs j hj f
      simp only [look] at this
      rw [List.getElem?_eq_getElem (by rw [hfull.fields]; exact f.2), Option.bind_some] at this
      exact this
    by_cases h0 : s.size = 0
    · refine ⟨s, zone, _, file, h1, h2, List.getElem?_eq_getElem hf, if_pos h0, hc, fun _ _ _ => rfl, fun _ h => h,
        fun c hc hc' => ?_⟩
      omega
    · have hin := hn r hr z i s hz hz' hs (Nat.pos_of_ne_zero h0)
      refine ⟨s, zone, _, _, h1, h2, List.getElem?_eq_getElem hf, (by
        unfold writeData
        rw [if_neg h0, if_pos ⟨hin.1, hin.2, hlen.ge⟩]), ?_, ?_, ?_, ?_⟩
      · intro z' f' c v hv
        dsimp only at hv
        split_ifs at hv with hcond
        · obtain ⟨rfl, rfl, hl, hu⟩ := hcond
          rw [hval (c - s.head) (by omega), Option.some.injEq] at hv
          refine ⟨f, rfl, ?_⟩
          rw [← hv]
          congr 1
          omega
        · exact hc z' f' c v hv
      · intro z' f' hne
        funext c
        rw [if_neg]
        rintro ⟨rfl, rfl, -⟩
        exact hne rfl
      · rintro c ⟨v, hv⟩
        split_ifs with hcond
        · exact ⟨_, hval _ (by omega)⟩
        · exact ⟨v, hv⟩
      · intro c hl hu
        rw [if_pos ⟨rfl, rfl, hl, hu⟩]
        exact ⟨_, hval _ (by omega)⟩
  obtain ⟨file', h1, h2, h3, h4, h5⟩ := fold_prefix (fun pre (file' : File V) => Consistent g file' ∧
      (∀ z' f', (z', f') ≠ (z, f.val + 1) → file' z' f' = file z' f') ∧
      (keep = true → ∀ c, (∃ v, file z (f + 1) c = some v) → ∃ v, file' z (f + 1) c = some v) ∧
      ∀ p ∈ pre, ∀ r s, ranks[p]? = some r → IsSect r z i s → ∀ c, s.head ≤ c → c < s.head + s.size →
        ∃ v, file' z (f + 1) c = some v)
    (fun file p => do
      let r ← ranks[p]?
      let zone ← r.cells.find z
      let s ← zone.find i
      let vals ← s.fields[f.val + 1 - 1]?
      writeData (n z) z (f + 1) s.head s.size vals file) order (create keep z (f + 1) file)
    ⟨consistent_create hc, fun z' f' hne => by
      unfold create
      split_ifs
      · rfl
      · funext c
        refine if_neg ?_
        rintro ⟨rfl, rfl⟩
        exact hne rfl, fun hk c hv => by simpa [create, hk] using hv, fun p hp => absurd hp List.not_mem_nil⟩ (by
    rintro pre p post file1 e ⟨g1, g2, g3, g4⟩
    have hp : p < ranks.length := List.mem_range.1 (ho.mem_iff.1 (by rw [e]; simp))
    obtain ⟨s, zone, vals, file2, l1, l2, l3, l4, l5, l6, l7, l8⟩ := hstep ranks[p] (List.getElem_mem hp) file1 g1
    refine ⟨file2, ?_, l5, fun z' f' hne => by rw [l6 z' f' hne, g2 z' f' hne], fun hk c hv => l7 c (g3 hk c hv),
      fun q hq r s' hr hs' c hc hc' => ?_⟩
    · simp only [List.getElem?_eq_getElem hp, Option.bind_eq_bind, Option.bind_some, l1, l2, l3, l4]
    · rcases List.mem_append.1 hq with hq | hq
      · exact l7 c (g4 q hq r s' hr hs' c hc hc')
      · obtain rfl := List.mem_singleton.1 hq
        rw [List.getElem?_eq_getElem hp, Option.some.injEq] at hr
        subst hr
        obtain ⟨zone', m1, m2⟩ := hs'
        rw [l1, Option.some.injEq] at m1
        subst m1
        rw [l2, Option.some.injEq] at m2
        subst m2
        exact l8 c hc hc')
  refine ⟨file', h1, h2, h3, h4, ?_⟩
  rintro c ⟨r, hr, s, hs, hc, hc'⟩
  obtain ⟨p, hp, rfl⟩ := List.getElem_of_mem hr
  exact h5 p (ho.mem_iff.2 (List.mem_range.2 hp)) _ s (List.getElem?_eq_getElem hp) hs c hc hc'

theorem upTo_split {m i : Nat} {pre post : List Nat} (h : upTo m = pre ++ i :: post) :
    ∀ j ∈ pre, j < i := by
  have hs : (upTo m).Pairwise (· < ·) := by
    unfold upTo
    rw [List.pairwise_map]
    exact List.pairwise_lt_range.imp fun h => by omega
  rw [h] at hs
  exact fun j hj => (List.pairwise_append.1 hs).2.2 j hj i List.mem_cons_self

/-- What is written for a zone. -/
theorem zone_spec {order : Nat → Nat → Nat → List Nat} {z m : Nat} {file : File V} (h : ∀ r ∈ ranks, Numbered k r)
    (hg : ∀ r ∈ ranks, FieldsHold g r) (hn : InZones n ranks)
    (ho : ∀ z f i, (order z f i).Perm (List.range ranks.length))
    (hi : ∀ i ∈ upTo m, ∀ r ∈ ranks, 1 ≤ z ∧ z ≤ r.zones ∧ ∃ s, IsSect r z i s) (hc : Consistent g file) :
    ∃ file', (upTo k).foldlM (fun file f => (upTo m).foldlM (fun file i =>
        writeSect keep (n z) ranks (order z f i) z f i file) file) file = some file' ∧ Consistent g file' ∧
      (∀ z' f, z' ≠ z → file' z' f = file z' f) ∧
      ∀ f ∈ upTo k, ∀ i ∈ upTo m, (keep = true ∨ i = m) → ∀ c, Owned ranks z i c → ∃ v, file' z f c = some v := by
  have inner : ∀ f ∈ upTo k, ∀ file : File V, Consistent g file → ∃ file', (upTo m).foldlM (fun file i =>
        writeSect keep (n z) ranks (order z f i) z f i file) file = some file' ∧ Consistent g file' ∧
      (∀ z' f', (z', f') ≠ (z, f) → file' z' f' = file z' f') ∧
      ∀ i ∈ upTo m, (keep = true ∨ i = m) → ∀ c, Owned ranks z i c → ∃ v, file' z f c = some v := by
    intro f hf file hc
    obtain ⟨hf1, hf2⟩ := mem_upTo.1 hf
    obtain ⟨f0, rfl⟩ : ∃ f0 : Fin k, f = f0.val + 1 := ⟨⟨f - 1, by omega⟩, by simp; omega⟩
    obtain ⟨file', h1, h2, h3, h4⟩ := fold_prefix (fun pre (file' : File V) => Consistent g file' ∧
        (∀ z' f', (z', f') ≠ (z, f0.val + 1) → file' z' f' = file z' f') ∧
        ∀ i ∈ pre, (keep = true ∨ ∀ j ∈ pre, j ≤ i) → ∀ c, Owned ranks z i c → ∃ v, file' z (f0 + 1) c = some v)
      (fun file i => writeSect keep (n z) ranks (order z (f0 + 1) i) z (f0 + 1) i file) (upTo m) file
      ⟨hc, fun _ _ _ => rfl, fun i hi => absurd hi List.not_mem_nil⟩ (by
      rintro pre i post file1 e ⟨g1, g2, g3⟩
      have him : i ∈ upTo m := by simp [e]
      obtain ⟨file2, l1, l2, l3, l4, l5⟩ := writeSect_spec (keep := keep) (f := f0) h hg hn (ho z (f0 + 1) i) (hi i him) g1
      refine ⟨file2, l1, l2, fun z' f' hne => by rw [l3 z' f' hne, g2 z' f' hne], fun j hj hkeep c hown => ?_⟩
      rcases List.mem_append.1 hj with hj | hj
      · rcases hkeep with hkeep | hmax
        · exact l4 hkeep c (g3 j hj (Or.inl hkeep) c hown)
        · have := hmax i (by simp)
          have := upTo_split e j hj
          omega
      · obtain rfl := List.mem_singleton.1 hj
        exact l5 c hown)
    exact ⟨file', h1, h2, h3, fun i hi hk c hown => h4 i hi (hk.imp id fun e j hj => by
      rw [e]; exact (mem_upTo.1 hj).2) c hown⟩
  obtain ⟨file', h1, h2, h3, h4⟩ := fold_prefix (fun pre (file' : File V) => Consistent g file' ∧
      (∀ z' f, z' ≠ z → file' z' f = file z' f) ∧
      ∀ f ∈ pre, ∀ i ∈ upTo m, (keep = true ∨ i = m) → ∀ c, Owned ranks z i c → ∃ v, file' z f c = some v)
    (fun file f => (upTo m).foldlM (fun file i => writeSect keep (n z) ranks (order z f i) z f i file) file) (upTo k) file
    ⟨hc, fun _ _ _ => rfl, fun i hi => absurd hi List.not_mem_nil⟩ (by
    rintro pre f post file1 e ⟨g1, g2, g3⟩
    have hf : f ∈ upTo k := by simp [e]
    obtain ⟨file2, l1, l2, l3, l4⟩ := inner f hf file1 g1
    refine ⟨file2, l1, l2, fun z' f' hne => by rw [l3 z' f' (by simp [hne]), g2 z' f' hne],
      fun f' hf' i hi hk c hown => ?_⟩
    rcases List.mem_append.1 hf' with hf' | hf'
    · have := upTo_split e f' hf'
      rw [l3 z f' (by simp; omega)]
      exact g3 f' hf' i hi hk c hown
    · obtain rfl := List.mem_singleton.1 hf'
      exact l4 i hi hk c hown)
  exact ⟨file', h1, h2, h3, h4⟩

/-- What all ranks write together. -/
theorem written {order : Nat → Nat → Nat → List Nat} (hne : ranks ≠ []) (h : ∀ r ∈ ranks, Numbered k r)
    (hg : ∀ r ∈ ranks, FieldsHold g r) (ha : Alike ranks) (hn : InZones n ranks)
    (ho : ∀ z f i, (order z f i).Perm (List.range ranks.length)) :
    ∃ file, writeSolutions keep k n ranks order = some file ∧ Consistent g file ∧
      ∀ r ∈ ranks, ∀ z, 1 ≤ z → z ≤ r.zones → ∀ f ∈ upTo k, ∀ i c, Owned ranks z i c →
        (keep = true ∨ ∀ j s, IsSect r z j s → j ≤ i) → ∃ v, file z f c = some v := by
  obtain ⟨r0, rest, rfl⟩ := List.exists_cons_of_ne_nil hne
  have h0 : r0 ∈ r0 :: rest := List.mem_cons_self
  have hz : agreed (fun r : Rank V => some r.zones) (r0 :: rest) = some r0.zones := by
    refine if_pos ?_
    intro r' hr'
    show some r'.zones = some r0.zones
    rw [(ha r' (List.mem_cons_of_mem _ hr') r0 h0).1]
  have hsz : ∀ z, 1 ≤ z → z ≤ r0.zones → ∃ m, agreed (fun r : Rank V => (r.cells.find z).map Map.size) (r0 :: rest) =
      some m ∧ ∀ r ∈ r0 :: rest, ∀ i, i ∈ upTo m ↔ ∃ s, IsSect r z i s := by
    intro z hz hz'
    obtain ⟨zone, h1, h2⟩ := (h r0 h0).zones z hz hz'
    refine ⟨zone.size, ?_, fun r hr i => ?_⟩
    · refine (if_pos ?_).trans (show (r0.cells.find z).map Map.size = some zone.size by rw [h1]; rfl)
      · intro r' hr'
        have := (ha r' (List.mem_cons_of_mem _ hr') r0 h0)
        exact this.2 z hz (by rw [this.1]; exact hz')
    · have hzr : r0.zones = r.zones := (ha r0 h0 r hr).1
      have hsz := (ha r0 h0 r hr).2 z hz hz'
      obtain ⟨zone', g1, g2⟩ := (h r hr).zones z hz (hzr ▸ hz')
      rw [h1, g1, Option.map_some, Option.map_some, Option.some.injEq] at hsz
      rw [mem_upTo, hsz, g2 i]
      constructor
      · rintro ⟨s, hs⟩
        exact ⟨s, zone', g1, hs⟩
      · rintro ⟨s, zone1, e1, e2⟩
        rw [g1, Option.some.injEq] at e1
        exact ⟨s, e1 ▸ e2⟩
  obtain ⟨file, h1, h2, h3⟩ := fold_prefix (fun pre (file : File V) => Consistent g file ∧
      ∀ z ∈ pre, ∀ f ∈ upTo k, ∀ i c, Owned (r0 :: rest) z i c →
        (keep = true ∨ ∀ j s, IsSect r0 z j s → j ≤ i) → ∃ v, file z f c = some v)
    (fun file z => do
      let sects ← agreed (fun r : Rank V => (r.cells.find z).map Map.size) (r0 :: rest)
      (upTo k).foldlM (fun file f =>
        (upTo sects).foldlM (fun file i => writeSect keep (n z) (r0 :: rest) (order z f i) z f i file) file) file)
    (upTo r0.zones) (fun _ _ _ => none) ⟨fun z f c v hv => absurd hv (by simp), fun z hz => absurd hz List.not_mem_nil⟩ (by
    rintro pre z post file1 e ⟨g1, g2⟩
    have hz : z ∈ upTo r0.zones := by simp [e]
    obtain ⟨hz1, hz2⟩ := mem_upTo.1 hz
    obtain ⟨m, l1, l2⟩ := hsz z hz1 hz2
    obtain ⟨file2, m1, m2, m3, m4⟩ := zone_spec (keep := keep) (z := z) (m := m) h hg hn ho (fun i hi r hr =>
      ⟨hz1, (ha r0 h0 r hr).1 ▸ hz2, (l2 r hr i).1 hi⟩) g1
    refine ⟨file2, by simp only [l1, Option.bind_eq_bind, Option.bind_some, m1], m2, fun z' hz' f hf i c hown hk => ?_⟩
    rcases List.mem_append.1 hz' with hz' | hz'
    · have := upTo_split e z' hz'
      rw [m3 z' f (by omega)]
      exact g2 z' hz' f hf i c hown hk
    · obtain rfl := List.mem_singleton.1 hz'
      obtain ⟨r, hr, s, hs, -⟩ := id hown
      have him : i ∈ upTo m := (l2 r hr i).2 ⟨s, hs⟩
      refine m4 f hf i him (hk.imp id fun hmax => ?_) c hown
      have hmm : m ∈ upTo m := mem_upTo.2 ⟨(mem_upTo.1 him).1.trans (mem_upTo.1 him).2, le_rfl⟩
      obtain ⟨s', hs'⟩ := (l2 r0 h0 m).1 hmm
      exact le_antisymm (mem_upTo.1 him).2 (hmax m s' hs'))
  refine ⟨file, ?_, h2, fun r hr z hz1 hz2 f hf i c hown hk => ?_⟩
  · unfold writeSolutions
    rw [hz]
    exact h1
  · have hzr := ha r0 h0 r hr
    have hz2' : z ≤ r0.zones := by rw [hzr.1]; exact hz2
    refine h3 z (mem_upTo.2 ⟨hz1, hz2'⟩) f hf i c hown (hk.imp id fun hmax j s hs => ?_)
    obtain ⟨m, l1, l2⟩ := hsz z hz1 hz2'
    obtain ⟨s', hs'⟩ := (l2 r hr j).1 ((l2 r0 h0 j).2 ⟨s, hs⟩)
    exact hmax j s' hs'

theorem done_alike {f : Nat → Sect V → Sect V → Prop} {ranks ranks' : List (Rank V)}
    (h : List.Forall₂ (Done f k) ranks ranks') (ha : Alike ranks) : Alike ranks' := by
  have key : ∀ r' ∈ ranks', ∃ r ∈ ranks, Done f k r r' := by
    intro r' hr'
    obtain ⟨i, hi, rfl⟩ := List.getElem_of_mem hr'
    have := List.forall₂_iff_get.1 h
    exact ⟨_, List.getElem_mem (this.1 ▸ hi), this.2 i (this.1 ▸ hi) hi⟩
  intro a' ha' b' hb'
  obtain ⟨a, g1, g2⟩ := key a' ha'
  obtain ⟨b, l1, l2⟩ := key b' hb'
  obtain ⟨m1, m2⟩ := ha a g1 b l1
  refine ⟨by rw [g2.zones, l2.zones, m1], fun z hz hz' => ?_⟩
  rw [g2.zones] at hz'
  rw [g2.sizes z hz hz', l2.sizes z hz (m1 ▸ hz'), m2 z hz hz']

/-- **C75** The file.  After `GatherSolutions` on every rank, `WriteSolutions` writes for every cell the numbers of
that cell, in whatever order the data of the ranks arrive.  If the library does not keep the values of an existing
field, this is so only for the last section of each zone. -/
theorem file_content {order : Nat → Nat → Nat → List Nat} {ranks' : List (Rank V)} (hne : ranks ≠ [])
    (h : ∀ r ∈ ranks, Numbered k r) (hg : ∀ r ∈ ranks, Holds g r) (ha : Alike ranks) (hn : InZones n ranks)
    (hgather : List.Forall₂ (fun r r' => gatherSolutions k r = some r') ranks ranks')
    (ho : ∀ z f i, (order z f i).Perm (List.range ranks.length)) :
    ∃ file, writeSolutions keep k n ranks' order = some file ∧ ∀ r ∈ ranks, ∀ z, 1 ≤ z → z ≤ r.zones →
      ∀ (f : Fin k) i c, Owned ranks z i c → (keep = true ∨ ∀ j s, IsSect r z j s → j ≤ i) →
        file z (f + 1) c = some (g z c f) := by
  have hd : ∀ p (hp : p < ranks.length) (hp' : p < ranks'.length), FieldsHold g ranks'[p] ∧
      Done (fun _ s s' => s.gather k = some s') k ranks[p] ranks'[p] := fun p hp hp' =>
    gather_holds (h _ (List.getElem_mem hp)) (hg _ (List.getElem_mem hp)) ((List.forall₂_iff_get.1 hgather).2 p hp hp')
  have hlen := hgather.length_eq
  have hdone : List.Forall₂ (Done (fun _ s s' => s.gather k = some s') k) ranks ranks' :=
    List.forall₂_iff_get.2 ⟨hlen, fun p hp hp' => (hd p hp hp').2⟩
  have hsame : ∀ z, ∀ r ∈ ranks, ∀ r', Done (fun _ s s' => s.gather k = some s') k r r' → 1 ≤ z → z ≤ r.zones →
      (∀ i s', IsSect r' z i s' → ∃ s, IsSect r z i s ∧ s'.head = s.head ∧ s'.size = s.size) := by
    intro z r hr r' hrr hz hz' i s' hs'
    obtain ⟨s, g1, g2⟩ := hrr.sects z i s' hz hz' hs'
    obtain ⟨s1, l1, l2, l3, l4, -⟩ := gather_spec ((h r hr).full z i s hz hz' g1)
    rw [g2, Option.some.injEq] at l1
    subst l1
    exact ⟨s, g1, l3, l4⟩
  obtain ⟨file, h1, h2, h3⟩ := written (keep := keep) (n := n) (ranks := ranks') (g := g) (order := order)
    (by intro e; rw [e] at hlen; exact hne (List.eq_nil_of_length_eq_zero hlen)) (by
      intro r' hr'
      obtain ⟨p, hp, rfl⟩ := List.getElem_of_mem hr'
      exact (hd p (hlen ▸ hp) hp).2.numbered) (by
      intro r' hr'
      obtain ⟨p, hp, rfl⟩ := List.getElem_of_mem hr'
      exact (hd p (hlen ▸ hp) hp).1) (done_alike hdone ha) (by
      intro r' hr' z i s' hz hz' hs' hpos
      obtain ⟨p, hp, rfl⟩ := List.getElem_of_mem hr'
      have hrr := (hd p (hlen ▸ hp) hp).2
      rw [hrr.zones] at hz'
      obtain ⟨s, g1, g2, g3⟩ := hsame z _ (List.getElem_mem (hlen ▸ hp)) _ hrr hz hz' i s' hs'
      rw [g2, g3]
      exact hn _ (List.getElem_mem (hlen ▸ hp)) z i s hz hz' g1 (g3 ▸ hpos)) (by rw [← hlen]; exact ho)
  refine ⟨file, h1, fun r hr z hz hz' f i c hown hk => ?_⟩
  obtain ⟨q, hq, rfl⟩ := List.getElem_of_mem hr
  have hrr := (hd q hq (hlen ▸ hq)).2
  obtain ⟨v, hv⟩ := h3 ranks'[q] (List.getElem_mem (hlen ▸ hq)) z hz (by rw [hrr.zones]; exact hz') (f + 1)
    (mem_upTo.2 ⟨by omega, f.2⟩) i c (by
      obtain ⟨r1, hr1, s, hs, hc, hc'⟩ := hown
      obtain ⟨p, hp, rfl⟩ := List.getElem_of_mem hr1
      have hpp := (hd p hp (hlen ▸ hp)).2
      have hz1 : z ≤ ranks[p].zones := by rw [← (ha _ hr _ hr1).1]; exact hz'
      obtain ⟨s', hs'⟩ := hpp.back z i s hz hz1 hs
      obtain ⟨s0, m1, m2, m3⟩ := hsame z _ hr1 _ hpp hz hz1 i s' hs'
      obtain ⟨z0, a1, a2⟩ := hs
      obtain ⟨z1, b1, b2⟩ := m1
      rw [a1, Option.some.injEq] at b1
      subst b1
      rw [a2, Option.some.injEq] at b2
      subst b2
      exact ⟨ranks'[p], List.getElem_mem (hlen ▸ hp), s', hs', by omega, by omega⟩) (hk.imp id fun hmax j s' hs' => by
      obtain ⟨s, g1, -⟩ := hsame z _ hr _ hrr hz hz' j s' hs'
      exact hmax j s g1)
  obtain ⟨f', e, hv'⟩ := h2 z (f + 1) c v hv
  have : f = f' := Fin.ext (by omega)
  rw [hv, hv', this]

/-- **C75** Reading.  `ReadSolutions` followed by `ScatterSolutions` gives every cell its numbers, on every rank all of
whose cells are in the file — of the same partition or of another one, whatever the rank held before. -/
theorem read_back {file : File V} {r : Rank V} (hr : Numbered k r)
    (hfile : ∀ z i s, 1 ≤ z → z ≤ r.zones → IsSect r z i s → ∀ (f : Fin k) j, j < s.size →
      file z (f + 1) (s.head + j) = some (g z (s.head + j) f)) :
    ∃ r1 r2, readSolutions k file r = some r1 ∧ scatterSolutions k r1 = some r2 ∧ Holds g r2 ∧ Numbered k r2 ∧
      r2.zones = r.zones ∧ ∀ z i, 1 ≤ z → z ≤ r.zones → ∀ s2, IsSect r2 z i s2 → ∃ s, IsSect r z i s ∧
        s2.head = s.head ∧ s2.size = s.size := by
  obtain ⟨r1, h1, d1⟩ := read_done hr (file := file) fun z i s hz hz' hs f hf j hj => by
    obtain ⟨hf1, hf2⟩ := mem_upTo.1 hf
    have := hfile z i s hz hz' hs ⟨f - 1, by omega⟩ j hj
    rw [show (⟨f - 1, by omega⟩ : Fin k).val + 1 = f by simp; omega] at this
    exact ⟨_, this⟩
  obtain ⟨r2, h2, d2⟩ := scatter_done d1.numbered
  have hsect : ∀ z i, 1 ≤ z → z ≤ r.zones → ∀ s2, IsSect r2 z i s2 → ∃ s, IsSect r z i s ∧
        s2.head = s.head ∧ s2.size = s.size ∧ Full k s2 ∧ ∀ j, j < s.size → ∀ f : Fin k,
          look s2.cells j f = some (g z (s.head + j) f) := by
    intro z i hz hz' s2 hs2
    have hz1 : z ≤ r1.zones := by rw [d1.zones]; exact hz'
    obtain ⟨s1, g1, g2⟩ := d2.sects z i s2 hz hz1 hs2
    obtain ⟨s1', l1, l2, l3, l4, l5, l6⟩ := scatter_spec (d1.numbered.full z i s1 hz hz1 g1)
    rw [g2, Option.some.injEq] at l1
    subst l1
    obtain ⟨s, m1, m2, m3, m4, m5, m6⟩ := d1.sects z i s1 hz hz' g1
    refine ⟨s, m1, by rw [l3, m2], by rw [l4, m3], l2, fun j hj f => ?_⟩
    rw [l6 j f (m3.symm ▸ hj) f.2]
    obtain ⟨vals, n1, n2⟩ := m6 (f + 1) (mem_upTo.2 ⟨by omega, f.2⟩)
    rw [Nat.add_sub_cancel] at n2
    rw [look, n2, Option.bind_some, (readData_length n1).2 j hj, hfile z i s hz hz' m1 f j hj]
  refine ⟨r1, r2, h1, h2, fun z i s2 hz hz' hs2 j hj => ?_, d2.numbered, d2.zones.trans d1.zones,
    fun z i hz hz' s2 hs2 => ?_⟩
  · rw [d2.zones, d1.zones] at hz'
    obtain ⟨s, g1, g2, g3, g4, g5⟩ := hsect z i hz hz' s2 hs2
    have hj' : j < s2.cells.length := by rw [g4.cells]; exact hj
    rw [List.getElem?_eq_getElem hj', Option.some.injEq]
    have hl := g4.coeff _ (List.getElem_mem hj')
    apply List.ext_getElem (by simp [hl])
    intro f hf hf'
    have := g5 j (g3 ▸ hj) ⟨f, by rw [List.length_ofFn] at hf'; exact hf'⟩
    simp only [look, List.getElem?_eq_getElem hj', Option.bind_some, List.getElem?_eq_getElem hf,
      Option.some.injEq] at this
    rw [this, List.getElem_ofFn]
    simp only [g2]
  · obtain ⟨s, g1, g2, g3, -⟩ := hsect z i hz hz' s2 hs2
    exact ⟨s, g1, g2, g3⟩

/-- **C75** Restart: what the ranks held when they called `GatherSolutions` and `WriteSolutions` is what ranks with cells
in the file hold after `ReadSolutions` and `ScatterSolutions`. -/
theorem restart {order : Nat → Nat → Nat → List Nat} {ranks' : List (Rank V)} (hne : ranks ≠ [])
    (h : ∀ r ∈ ranks, Numbered k r) (hg : ∀ r ∈ ranks, Holds g r) (ha : Alike ranks) (hn : InZones n ranks)
    (hgather : List.Forall₂ (fun r r' => gatherSolutions k r = some r') ranks ranks')
    (ho : ∀ z f i, (order z f i).Perm (List.range ranks.length))
    (hkeep : keep = true ∨ ∀ r ∈ ranks, ∀ z i s, IsSect r z i s → i = 1) {reader : Rank V} (hr : Numbered k reader)
    (hz : ∀ r ∈ ranks, reader.zones = r.zones)
    (hcov : ∀ z i s, 1 ≤ z → z ≤ reader.zones → IsSect reader z i s → ∀ j, j < s.size →
      ∃ i', Owned ranks z i' (s.head + j)) :
    ∃ file r1 r2, writeSolutions keep k n ranks' order = some file ∧ readSolutions k file reader = some r1 ∧
      scatterSolutions k r1 = some r2 ∧ Holds g r2 := by
  obtain ⟨file, h1, h2⟩ := file_content (keep := keep) hne h hg ha hn hgather ho
  obtain ⟨r1, r2, g1, g2, g3, -⟩ := read_back (g := g) hr (file := file) fun z i s hz1 hz2 hs f j hj => by
    obtain ⟨i', hown⟩ := hcov z i s hz1 hz2 hs j hj
    obtain ⟨r, hr', s', hs', -⟩ := id hown
    refine h2 r hr' z hz1 (hz r hr' ▸ hz2) f i' _ hown (hkeep.imp id fun hone j' t ht => ?_)
    rw [hone r hr' z j' t ht, hone r hr' z i' s' hs']
  exact ⟨file, r1, r2, h1, g1, g2, g3⟩

/-- If no cell belongs to two sections then some solution is held by all ranks. -/
theorem solution_exists [Inhabited V] (h : ∀ r ∈ ranks, Numbered k r) (hd : Disjoint' ranks) :
    ∃ g : Solution V k, ∀ r ∈ ranks, Holds g r := by
  classical
  let P : Nat → Nat → Fin k → V → Prop := fun z c f v => ∃ (p : Nat) (r : Rank V) (i : Nat) (s : Sect V),
    ranks[p]? = some r ∧ z ≤ r.zones ∧ IsSect r z i s ∧ s.head ≤ c ∧ c < s.head + s.size ∧
    look s.cells (c - s.head) f = some v
  refine ⟨fun z c f => if h : ∃ v, P z c f v then h.choose else default, fun r hr z i s hz hz' hs j hj => ?_⟩
  have hfull := (h r hr).full z i s hz hz' hs
  have hj' : j < s.cells.length := by rw [hfull.cells]; exact hj
  have hl := hfull.coeff _ (List.getElem_mem hj')
  rw [List.getElem?_eq_getElem hj', Option.some.injEq]
  apply List.ext_getElem (by simp [hl])
  intro f hf hf'
  rw [List.getElem_ofFn]
  rw [List.length_ofFn] at hf'
  obtain ⟨p, hp, rfl⟩ := List.getElem_of_mem hr
  have hp' : ranks[p]? = some ranks[p] := List.getElem?_eq_getElem hp
  have hex : ∃ v, P z (s.head + j) ⟨f, hf'⟩ v := ⟨_, p, _, i, s, hp', hz', hs, by omega, by omega, by
    rw [Nat.add_sub_cancel_left, look, List.getElem?_eq_getElem hj', Option.bind_some, List.getElem?_eq_getElem hf]⟩
  dsimp only
  rw [dif_pos hex]
  obtain ⟨q, r', i', s', h1, h2, h3, h4, h5, h6⟩ := hex.choose_spec
  obtain ⟨rfl, rfl⟩ := hd p q _ r' z i i' s s' (s.head + j) hp' h1 hz hz' hs h3 (by omega) (by omega) h4 h5
  rw [hp', Option.some.injEq] at h1
  subst h1
  obtain ⟨z0, a1, a2⟩ := hs
  obtain ⟨z1, b1, b2⟩ := h3
  rw [a1, Option.some.injEq] at b1
  subst b1
  rw [a2, Option.some.injEq] at b2
  subst b2
  rw [Nat.add_sub_cancel_left, look, List.getElem?_eq_getElem hj', Option.bind_some, List.getElem?_eq_getElem hf,
    Option.some.injEq] at h6
  exact h6

/-- **C75** A restart on the same partition: a rank with the same sections as rank `r` had, whatever it holds, ends up
with the coefficients of `r`. -/
theorem checkpoint [Inhabited V] {order : Nat → Nat → Nat → List Nat} {ranks' : List (Rank V)}
    (h : ∀ r ∈ ranks, Numbered k r) (hd : Disjoint' ranks) (ha : Alike ranks) (hn : InZones n ranks)
    (hgather : List.Forall₂ (fun r r' => gatherSolutions k r = some r') ranks ranks')
    (ho : ∀ z f i, (order z f i).Perm (List.range ranks.length))
    (hkeep : keep = true ∨ ∀ r ∈ ranks, ∀ z i s, IsSect r z i s → i = 1) {r reader : Rank V} (hr : r ∈ ranks)
    (hreader : Numbered k reader) (hz : reader.zones = r.zones)
    (hs : ∀ z i s, 1 ≤ z → z ≤ r.zones → IsSect reader z i s → ∃ s0, IsSect r z i s0 ∧ s.head = s0.head ∧
      s.size = s0.size) :
    ∃ file r1 r2, writeSolutions keep k n ranks' order = some file ∧ readSolutions k file reader = some r1 ∧
      scatterSolutions k r1 = some r2 ∧ ∀ z i s2, 1 ≤ z → z ≤ r.zones → IsSect r2 z i s2 →
        ∃ s0, IsSect r z i s0 ∧ s2.cells = s0.cells := by
  obtain ⟨g, hg⟩ := solution_exists h hd
  obtain ⟨file, h1, h2⟩ := file_content (keep := keep) (List.ne_nil_of_mem hr) h hg ha hn hgather ho
  obtain ⟨r1, r2, g1, g2, g3, g4, g5, g6⟩ := read_back (g := g) hreader (file := file) fun z i s hz1 hz2 hs1 f j hj => by
    obtain ⟨s0, e1, e2, e3⟩ := hs z i s hz1 (hz ▸ hz2) hs1
    refine h2 r hr z hz1 (hz ▸ hz2) f i _ ⟨r, hr, s0, e1, by omega, by omega⟩ (hkeep.imp id fun hone j' t ht => ?_)
    rw [hone r hr z j' t ht, hone r hr z i s0 e1]
  refine ⟨file, r1, r2, h1, g1, g2, fun z i s2 hz1 hz2 hs2 => ?_⟩
  have hz3 : z ≤ reader.zones := by rw [hz]; exact hz2
  have hz4 : z ≤ r2.zones := by rw [g5]; exact hz3
  obtain ⟨s, l1, l2, l3⟩ := g6 z i hz1 hz3 s2 hs2
  obtain ⟨s0, e1, e2, e3⟩ := hs z i s hz1 hz2 l1
  refine ⟨s0, e1, ?_⟩
  have f2 := g4.full z i s2 hz1 hz4 hs2
  have f0 := (h r hr).full z i s0 hz1 hz2 e1
  apply List.ext_getElem? fun j => ?_
  rcases lt_or_ge j s0.size with hj | hj
  · rw [g3 z i s2 hz1 hz4 hs2 j (by omega), hg r hr z i s0 hz1 hz2 e1 j hj, l2, e2]
  · rw [List.getElem?_eq_none (by rw [f2.cells]; omega), List.getElem?_eq_none (by rw [f0.cells]; omega)]

/-! ### What can go wrong -/

/-- A zone whose first section of cells does not have number 1: gathering is undefined. -/
theorem sections_from_two {r : Rank V} {zone : Map (Sect V)} (hz : 1 ≤ r.zones) (h : r.cells.find 1 = some zone)
    (hs : 1 ≤ zone.size) (h1 : zone.find 1 = none) : gatherSolutions k r = none := by
  have e : ∀ n, 1 ≤ n → upTo n = 1 :: (upTo n).tail := by
    intro n hn
    obtain ⟨m, rfl⟩ := Nat.exists_eq_add_of_le' hn
    simp [upTo, List.range_succ_eq_map]
  have hsect : eachSect (Sect.gather k) zone = none := by
    unfold eachSect
    rw [e _ hs]
    simp [List.foldlM_cons, h1]
  unfold gatherSolutions eachZone
  rw [e _ hz]
  simp [List.foldlM_cons, zoneStep, h, hsect]

/-- Gathering and scattering make an empty zone for each zone without cells on this rank, and no other zones: the map
grows by the number of these zones. -/
theorem zones_made {g : Nat → Map (Sect V) → Option (Map (Sect V))} {r r' : Rank V} (h : eachZone insertZone g r = some r') :
    (∀ z, 1 ≤ z → z ≤ r.zones → r.cells.find z = none → r'.cells.find z = some Map.empty) ∧
      (∀ z, (r'.cells.find z).isSome ↔ (1 ≤ z ∧ z ≤ r.zones) ∨ (r.cells.find z).isSome) ∧
      r'.cells.size = r.cells.size + ((upTo r.zones).filter fun z => (r.cells.find z).isNone).length := by
  have main : ∀ (l : List Nat), l.Nodup → ∀ cells cells' : Map (Map (Sect V)),
      l.foldlM (zoneStep insertZone g) cells = some cells' →
      (∀ z ∈ l, cells.find z = none → cells'.find z = some Map.empty) ∧ (∀ z ∉ l, cells'.find z = cells.find z) ∧
        (∀ z ∈ l, (cells'.find z).isSome) ∧ cells'.size = cells.size + (l.filter fun z => (cells.find z).isNone).length := by
    intro l
    induction l with
    | nil =>
      intro _ cells cells' h
      simp only [List.foldlM_nil, Option.pure_def, Option.some.injEq] at h
      subst h
      simp
    | cons a l ih =>
      intro hn cells cells' h
      rw [List.nodup_cons] at hn
      rw [List.foldlM_cons] at h
      obtain ⟨mid, h1, h2⟩ := Option.bind_eq_some_iff.1 h
      obtain ⟨i1, i2, i3, i4⟩ := ih hn.2 mid cells' h2
      have hmid : (∀ z, z ≠ a → mid.find z = cells.find z) ∧ (mid.find a).isSome ∧
          (cells.find a = none → mid.find a = some Map.empty) ∧
          mid.size = cells.size + if (cells.find a).isNone then 1 else 0 := by
        unfold zoneStep at h1
        cases hz : cells.find a with
        | some zone =>
          rw [hz] at h1
          obtain ⟨zone', _, rfl⟩ := Option.map_eq_some_iff.1 h1
          simp +contextual [Map.put]
        | none =>
          rw [hz] at h1
          obtain rfl := Option.some.inj h1
          simp +contextual [Map.put]
      obtain ⟨m1, m2, m3, m4⟩ := hmid
      have hne : ∀ z ∈ l, z ≠ a := fun z hz e => hn.1 (e ▸ hz)
      refine ⟨fun z hz e => ?_, fun z hz => ?_, fun z hz => ?_, ?_⟩
      · rcases List.mem_cons.1 hz with rfl | hz
        · rw [i2 _ hn.1, m3 e]
        · exact i1 z hz ((m1 z (hne z hz)).trans e)
      · rw [List.mem_cons, not_or] at hz
        rw [i2 z hz.2, m1 z hz.1]
      · rcases List.mem_cons.1 hz with rfl | hz
        · rw [i2 _ hn.1]; exact m2
        · exact i3 z hz
      · have e : (l.filter fun z => (mid.find z).isNone) = l.filter fun z => (cells.find z).isNone :=
          List.filter_congr fun z hz => by rw [m1 z (hne z hz)]
        rw [i4, m4, e, List.filter_cons]
        split_ifs <;> simp <;> omega
  unfold eachZone at h
  obtain ⟨cells, h1, h2⟩ := Option.bind_eq_some_iff.1 h
  obtain rfl := Option.some.inj h2
  obtain ⟨k1, k2, k3, k4⟩ := main _ (upTo_nodup _) _ _ h1
  refine ⟨fun z h0 h1 e => k1 z (mem_upTo.2 ⟨h0, h1⟩) e, fun z => ?_, k4⟩
  by_cases hz : z ∈ upTo r.zones
  · simp only [k3 z hz, mem_upTo.1 hz, and_self, true_or]
  · rw [k2 z hz]
    exact ⟨Or.inr, fun hh => hh.resolve_left fun hh => hz (mem_upTo.2 hh)⟩

/-- A rank that has cells in none of its two zones. -/
example : ∃ r', gatherSolutions 1 (⟨2, Map.empty⟩ : Rank V) = some r' ∧ r'.cells.size = 2 := by
  refine ⟨_, rfl, ?_⟩
  exact (zones_made (r := (⟨2, Map.empty⟩ : Rank V)) (g := fun _ => eachSect (Sect.gather 1)) rfl).2.2

/-- A rank with other coefficients. -/
def withCells (u : Nat → Nat → List (List V)) (r : Rank V) : Rank V :=
  { r with cells := { r.cells with find := fun z => (r.cells.find z).map fun zone =>
      { zone with find := fun i => (zone.find i).map fun s => { s with cells := u z i } } } }

/-- Without `GatherSolutions` the coefficients do not matter: what is written is what the vectors held before. -/
theorem not_gathered {order : Nat → Nat → Nat → List Nat} (u : Nat → Nat → Nat → List (List V)) :
    writeSolutions keep k n (ranks.mapIdx fun p => withCells (u p)) order = writeSolutions keep k n ranks order := by
  have hag : ∀ f : Rank V → Option Nat, (∀ u r, f (withCells u r) = f r) →
      agreed f (ranks.mapIdx fun p => withCells (u p)) = agreed f ranks := by
    intro f hf
    cases ranks with
    | nil => rfl
    | cons r rest =>
      have e : (∀ r' ∈ rest.mapIdx fun p => withCells (u (p + 1)), f r' = f r) ↔ ∀ r' ∈ rest, f r' = f r := by
        constructor
        · intro h r' hr'
          obtain ⟨p, hp, rfl⟩ := List.getElem_of_mem hr'
          rw [← hf (u (p + 1))]
          exact h _ (List.mem_mapIdx.2 ⟨p, hp, rfl⟩)
        · intro h r' hr'
          obtain ⟨p, hp, rfl⟩ := List.mem_mapIdx.1 hr'
          rw [hf]
          exact h _ (List.getElem_mem hp)
      rw [List.mapIdx_cons]
      simp only [agreed, hf, e]
  have hw : ∀ z f i file, writeSect keep (n z) (ranks.mapIdx fun p => withCells (u p)) (order z f i) z f i file =
      writeSect keep (n z) ranks (order z f i) z f i file := by
    intro z f i file
    unfold writeSect
    refine congrArg (fun step : File V → Nat → Option (File V) => (order z f i).foldlM step (create keep z f file)) ?_
    funext file p
    rw [List.getElem?_mapIdx]
    cases ranks[p]? with
    | none => rfl
    | some r =>
      simp only [Option.map_some, Option.bind_eq_bind, Option.bind_some, withCells]
      cases r.cells.find z with
      | none => rfl
      | some zone =>
        simp only [Option.map_some, Option.bind_some]
        cases zone.find i with
        | none => rfl
        | some s => rfl
  unfold writeSolutions
  rw [hag _ fun _ _ => rfl]
  simp only [hw]
  have hs : ∀ z, agreed (fun r : Rank V => (r.cells.find z).map Map.size) (ranks.mapIdx fun p => withCells (u p)) =
      agreed (fun r : Rank V => (r.cells.find z).map Map.size) ranks := by
    intro z
    refine hag _ fun u r => ?_
    simp only [withCells, Option.map_map]
    rfl
  simp only [hs]

/-- One rank with a zone of two sections of one cell each. -/
def two (a b : V) : Rank V := ⟨1, ⟨1, fun z => if z = 1 then some ⟨2, fun i =>
  if i = 1 then some ⟨1, 1, [[a]], [[a]]⟩ else if i = 2 then some ⟨2, 1, [[b]], [[b]]⟩ else none⟩ else none⟩⟩

/-- If the library does not keep the values of a field created again, the values of all sections but the last of a zone
are lost. -/
theorem earlier_lost (a b : V) : ∃ file, writeSolutions false 1 (fun _ => 2) [two a b] (fun _ _ _ => [0]) = some file ∧
    file 1 1 1 = none ∧ file 1 1 2 = some b ∧ readSolutions 1 file (two a b) = none := by
  refine ⟨_, rfl, rfl, rfl, rfl⟩

/-- If it does, they are there. -/
theorem earlier_kept (a b : V) : ∃ file, writeSolutions true 1 (fun _ => 2) [two a b] (fun _ _ _ => [0]) = some file ∧
    file 1 1 1 = some a ∧ file 1 1 2 = some b := by
  refine ⟨_, rfl, rfl, rfl⟩

/-! ### A case -/

theorem two_sects {a b : V} {z i : Nat} {s : Sect V} (h : IsSect (two a b) z i s) :
    z = 1 ∧ (i = 1 ∧ s = ⟨1, 1, [[a]], [[a]]⟩ ∨ i = 2 ∧ s = ⟨2, 1, [[b]], [[b]]⟩) := by
  obtain ⟨zone, h1, h2⟩ := h
  simp only [two] at h1
  split_ifs at h1 with hz
  cases h1
  dsimp only at h2
  split_ifs at h2 with h3 h4
  · cases h2; exact ⟨hz, Or.inl ⟨h3, rfl⟩⟩
  · cases h2; exact ⟨hz, Or.inr ⟨h4, rfl⟩⟩

theorem two_numbered (a b : V) : Numbered 1 (two a b) := by
  refine ⟨fun z hz hz' => ?_, fun z i s _ _ hs => ?_⟩
  · obtain rfl : z = 1 := Nat.le_antisymm hz' hz
    refine ⟨_, rfl, fun i => ⟨fun h => ?_, ?_⟩⟩
    · have hi2 : i ≤ 2 := h.2
      obtain rfl | rfl : i = 1 ∨ i = 2 := by omega
      · exact ⟨_, rfl⟩
      · exact ⟨_, rfl⟩
    · rintro ⟨s, hs⟩
      obtain ⟨-, h | h⟩ := two_sects (a := a) (b := b) (z := 1) (i := i) (s := s) ⟨_, rfl, hs⟩
      · rw [h.1]; exact ⟨le_rfl, Nat.le_succ 1⟩
      · rw [h.1]; exact ⟨Nat.le_succ 1, le_rfl⟩
  · obtain ⟨-, ⟨-, rfl⟩ | ⟨-, rfl⟩⟩ := two_sects hs <;> exact ⟨rfl, by simp, rfl, by simp⟩

/-- A run whose coefficients have changed since the last gathering: `3` and `4` are restored on a rank holding zeros. -/
example : ∃ file r1 r2 r', gatherSolutions 1 (two 3 4) = some r' ∧
    writeSolutions true 1 (fun _ => 2) [r'] (fun _ _ _ => [0]) = some file ∧
    readSolutions 1 file (two 0 0) = some r1 ∧ scatterSolutions 1 r1 = some r2 ∧
    ∀ z i s2, 1 ≤ z → z ≤ 1 → IsSect r2 z i s2 → ∃ s0, IsSect (two 3 4) z i s0 ∧ s2.cells = s0.cells := by
  obtain ⟨r', hr', -⟩ := gather_done (two_numbered 3 4)
  obtain ⟨file, r1, r2, h1, h2, h3, h4⟩ := checkpoint (ranks := [two 3 4]) (ranks' := [r']) (keep := true)
    (n := fun _ => 2) (order := fun _ _ _ => [0]) (r := two 3 4) (reader := two 0 0) (k := 1)
    (fun r hr => by rw [List.mem_singleton.1 hr]; exact two_numbered 3 4) (by
      intro p q r r' z i i' s s' c hp hq _ _ hs hs' c1 c2 c3 c4
      obtain rfl : p = 0 := by
        have := (List.getElem?_eq_some_iff.1 hp).1
        simp only [List.length_cons, List.length_nil] at this
        omega
      obtain rfl : q = 0 := by
        have := (List.getElem?_eq_some_iff.1 hq).1
        simp only [List.length_cons, List.length_nil] at this
        omega
      cases hp
      cases hq
      refine ⟨rfl, ?_⟩
      obtain ⟨-, ⟨rfl, rfl⟩ | ⟨rfl, rfl⟩⟩ := two_sects hs <;>
        obtain ⟨-, ⟨rfl, rfl⟩ | ⟨rfl, rfl⟩⟩ := two_sects hs' <;> simp only at c1 c2 c3 c4 <;> omega) (by
      intro a ha b hb
      rw [List.mem_singleton.1 ha, List.mem_singleton.1 hb]
      exact ⟨rfl, fun _ _ _ => rfl⟩) (by
      intro r hr z i s _ _ hs _
      rw [List.mem_singleton.1 hr] at hs
      obtain ⟨-, ⟨-, rfl⟩ | ⟨-, rfl⟩⟩ := two_sects hs <;> simp) (List.Forall₂.cons hr' List.Forall₂.nil)
    (fun _ _ _ => List.Perm.refl _) (Or.inl rfl) List.mem_cons_self (two_numbered 0 0) rfl (by
      intro z i s _ _ hs
      obtain ⟨rfl, ⟨rfl, rfl⟩ | ⟨rfl, rfl⟩⟩ := two_sects hs
      · exact ⟨⟨1, 1, [[3]], [[3]]⟩, ⟨_, rfl, rfl⟩, rfl, rfl⟩
      · exact ⟨⟨2, 1, [[4]], [[4]]⟩, ⟨_, rfl, rfl⟩, rfl, rfl⟩)
  exact ⟨file, r1, r2, r', hr', h1, h2, h3, h4⟩

end MiniCFD.Checkpoint
