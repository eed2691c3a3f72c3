import Verif.Lemmas.Shuffle

/-!
C02 (renumbering is a bijection sorted by part) and C03 (shuffling a mesh does not
change its geometry or its data).
-/
namespace MiniCFD.Shuffle
open MiniCFD.Spec.Shuffle

variable {T : Type} [LinearOrder T] {α : Type}

/-- **C02.** `GetNewOrder` never reads or writes out of range; its two arrays are mutually
inverse renumberings; the new order is sorted by part, ties by old index. -/
theorem getNewOrder_spec (parts : List T) :
    ∃ newToOld oldToNew, getNewOrder parts = some (newToOld, oldToNew) ∧
      Inverse parts.length newToOld oldToNew ∧ StablySorted parts newToOld := by
  obtain ⟨r, hr, hl, h1, h2⟩ := invertLoop_spec (sorted parts) 0 (List.replicate parts.length 0)
    (fun j hj => by simpa using (mem_sorted parts j).1 hj) (sorted_nodup parts)
  have hl' : r.length = parts.length := by simpa using hl
  refine ⟨sorted parts, r, ?_, ⟨sorted_length parts, hl', ?_, ?_⟩, ?_⟩
  · simp only [getNewOrder]
    change (invertLoop (sorted parts) 0 _).bind _ = _
    rw [hr]; rfl
  · intro i hi
    have hi' : i < (sorted parts).length := by rw [sorted_length]; exact hi
    have hg : (sorted parts)[i]? = some (sorted parts)[i] := by simp [hi']
    refine ⟨(sorted parts)[i], (mem_sorted parts _).1 (List.getElem_mem hi'), hg, ?_⟩
    simpa using h1 i _ hg
  · intro j hj
    obtain ⟨i, hi, hij⟩ := List.getElem_of_mem ((mem_sorted parts j).2 hj)
    have hg : (sorted parts)[i]? = some j := by simp [hi, hij]
    exact ⟨i, by rw [← sorted_length parts]; exact hi, by simpa using h1 i j hg, hg⟩
  · intro i i' j j' k k' hlt hi hi' hk hk'
    have hb : i' < (sorted parts).length := (List.getElem?_eq_some_iff.1 hi').1
    have ha : i < (sorted parts).length := by omega
    have hp := List.pairwise_iff_getElem.1 (sorted_pairwise parts) i i' ha hb hlt
    rw [(List.getElem?_eq_some_iff.1 hi).2, (List.getElem?_eq_some_iff.1 hi').2, cmp_iff] at hp
    rcases hp with ⟨x, y, hx, hy, h⟩ | ⟨x, hx, hy⟩ | ⟨hx, _⟩
    · rw [hk] at hx; rw [hk'] at hy; cases hx; cases hy; exact h
    · rw [hk'] at hy; cases hy
    · rw [hk] at hx; cases hx

/-- The specification of C02 determines the order: whatever sorting algorithm is used,
the answer is the same. -/
theorem newOrder_unique (parts : List T) (f g f' g' : List Nat)
    (hf : Inverse parts.length f g) (hs : StablySorted parts f)
    (hf' : Inverse parts.length f' g') (hs' : StablySorted parts f') : f = f' := by
  have key : ∀ (f g f' g' : List Nat), Inverse parts.length f g → StablySorted parts f →
      Inverse parts.length f' g' → StablySorted parts f' →
      ∀ (i : Nat), (∀ i' < i, f[i']? = f'[i']?) → ∀ (j j' : Nat), f[i]? = some j → f'[i]? = some j' →
        ∀ k k', parts[j]? = some k → parts[j']? = some k' → ¬ (k < k' ∨ (k = k' ∧ j < j')) := by
    intro f g f' g' hf hs hf' hs' i hprev j j' hj hj' k k' hk hk' hlt
    -- `j` occurs in `f'` at some place `p`; it can be neither before nor after `i`
    have hjl : j < parts.length := (List.getElem?_eq_some_iff.1 hk).1
    obtain ⟨p, hp, -, hpj⟩ := hf'.right j hjl
    have inj : ∀ {f g : List Nat}, Inverse parts.length f g → ∀ {a b c : Nat},
        f[a]? = some c → f[b]? = some c → a = b := by
      intro f g hf a b c ha hb
      have hal : a < parts.length := by rw [← hf.lenF]; exact (List.getElem?_eq_some_iff.1 ha).1
      have hbl : b < parts.length := by rw [← hf.lenF]; exact (List.getElem?_eq_some_iff.1 hb).1
      obtain ⟨c1, _, h1, h1'⟩ := hf.left a hal
      obtain ⟨c2, _, h2, h2'⟩ := hf.left b hbl
      rw [ha] at h1; cases h1; rw [hb] at h2; cases h2
      rw [h1'] at h2'; exact Option.some.inj h2'
    rcases Nat.lt_trichotomy p i with h | h | h
    · have := hprev p h
      rw [hpj] at this
      have := inj hf this hj
      omega
    · subst h; rw [hpj] at hj'; cases hj'
      rw [hk] at hk'; cases hk'
      rcases hlt with h | ⟨_, h⟩
      · exact lt_irrefl _ h
      · exact lt_irrefl _ h
    · have := hs' i p j' j k' k h hj' hpj hk' hk
      rcases this with h1 | ⟨h1, h1'⟩ <;> rcases hlt with h2 | ⟨h2, h2'⟩
      · exact lt_irrefl _ (lt_trans h1 h2)
      · subst h2; exact lt_irrefl _ h1
      · subst h1; exact lt_irrefl _ h2
      · omega
  apply List.ext_getElem?
  intro i
  induction i using Nat.strong_induction_on with
  | _ i ih =>
    by_cases hi : i < parts.length
    · obtain ⟨j, hj, hji, -⟩ := hf.left i hi
      obtain ⟨j', hj', hji', -⟩ := hf'.left i hi
      obtain ⟨k, hk⟩ : ∃ k, parts[j]? = some k := ⟨_, List.getElem?_eq_getElem hj⟩
      obtain ⟨k', hk'⟩ : ∃ k, parts[j']? = some k := ⟨_, List.getElem?_eq_getElem hj'⟩
      have n1 := key f g f' g' hf hs hf' hs' i ih j j' hji hji' k k' hk hk'
      have n2 := key f' g' f g hf' hs' hf hs i (fun a h => (ih a h).symm) j' j hji' hji k' k hk' hk
      rw [hji, hji']
      push Not at n1 n2
      have hkk : k = k' := le_antisymm n2.1 n1.1
      subst hkk
      have := n1.2 rfl; have := n2.2 rfl
      congr 1; omega
    · rw [List.getElem?_eq_none (by rw [hf.lenF]; omega),
        List.getElem?_eq_none (by rw [hf'.lenF]; omega)]

/-- Non-vacuity: a partition in which the permutation is not an involution. -/
example : getNewOrder [2, 0, 1, 0] = some ([1, 3, 2, 0], [3, 0, 2, 1]) := by decide +kernel

theorem reordered_of_full {order : List Nat} {old new : List α} (h : ReorderedAt 0 order old new) :
    Reordered order old new := by
  refine ⟨h.1, fun i j hij => ?_⟩
  have := h.2.1 i j hij
  simpa using this

theorem inverse_mem {n : Nat} {f g : List Nat} (h : Inverse n f g) {j : Nat} (hj : j ∈ f) :
    j < n := by
  obtain ⟨i, hi, rfl⟩ := List.getElem_of_mem hj
  obtain ⟨j, hj, hij, -⟩ := h.left i (by rw [← h.lenF]; exact hi)
  rw [List.getElem?_eq_getElem hi] at hij
  cases hij; exact hj

/-- **C03, connectivity part.** Every element keeps its geometry: `ShuffleConnectivity`
with the node renumbering and any element order gives a table through which every element
sees the data it saw before. -/
theorem shuffleConnectivity_kept {n : Nat} {nodeOrder nodeInverse order inverse : List Nat}
    (hnode : Inverse n nodeOrder nodeInverse) {m : Nat} (hord : Inverse m order inverse)
    {npe : Nat} {conn r : List Nat}
    (h : shuffleConnectivity nodeInverse order npe conn = some r) :
    r.length = conn.length ∧ ElementsKept nodeOrder npe conn r order := by
  obtain ⟨hl, hspec⟩ := shuffleConnectivity_spec h
  refine ⟨hl, ?_⟩
  intro β data data' hre i c k hic hk
  have hc : c < order.length := by
    rw [hord.lenF]
    exact inverse_mem hord (List.mem_of_getElem? hic)
  obtain ⟨nid, q, h1, h2, h3, h4⟩ := hspec i c k hic hc hk
  have hq : nodeOrder[q]? = some (nid - 1) := by
    have hlt : nid - 1 < n := by
      rw [← hnode.lenG]; exact (List.getElem?_eq_some_iff.1 h3).1
    obtain ⟨i', _, e1, e2⟩ := hnode.right (nid - 1) hlt
    rw [h3] at e1; cases e1; exact e2
  unfold nodeValue
  rw [h4, h1]
  simp only [Option.bind_eq_bind, Option.bind_some]
  rw [if_neg (by omega), if_neg h2, Nat.add_sub_cancel]
  exact hre.2 q (nid - 1) hq

/-- One section. -/
theorem shuffleSect_kept {n : Nat} {nodeOrder nodeInverse : List Nat}
    (hnode : Inverse n nodeOrder nodeInverse) (s : Sect) (fields : List (List α))
    (hconn : s.conn.length = s.parts.length * s.npe)
    (hids : ∀ nid ∈ s.conn, 1 ≤ nid ∧ nid ≤ n)
    (hpos : s.isCell = true → 1 ≤ s.rangeMin)
    (hfl : s.isCell = true → ∀ f ∈ fields, s.rangeMin - 1 + s.parts.length ≤ f.length) :
    ∃ s' fields', shuffleSect nodeInverse s fields = some (s', fields') ∧
      SectionKept nodeOrder fields fields' s s' ∧
      List.Forall₂ (fun f f' => f'.length = f.length ∧
        ∀ k, (s.isCell = true → ¬ inWindow s k) → f'[k]? = f[k]?) fields fields' := by
  obtain ⟨order, inverse, hno, hinv, hsort⟩ := getNewOrder_spec s.parts
  obtain ⟨conn', hc⟩ := shuffleConnectivity_isSome (o2n := nodeInverse) (n2o := order)
    (conn := s.conn) (npe := s.npe) (by rw [hnode.lenG]; exact hids)
    (by rw [hinv.lenF, hconn]) (fun c hc => by rw [hinv.lenF]; exact inverse_mem hinv hc)
  obtain ⟨hcl, hkept⟩ := shuffleConnectivity_kept hnode hinv hc
  by_cases hcell : s.isCell = true
  · have hex : ∃ fields', fields.mapM (shuffleData order (s.rangeMin - 1)) = some fields' := by
      refine mapM_isSome (fun f hf => ?_)
      have := hfl hcell f hf
      obtain ⟨r, hr⟩ := shuffleData_isSome (order := order) (off := s.rangeMin - 1) (data := f)
        (fun j hj => by have := inverse_mem hinv hj; omega) (by rw [hinv.lenF]; exact this)
      simp [hr]
    obtain ⟨fields', hf'⟩ := hex
    have hRA : List.Forall₂ (fun f f' => ReorderedAt (s.rangeMin - 1) order f f') fields fields' :=
      (mapM_eq_some.1 hf').imp (fun f f' h => shuffleData_spec h)
    refine ⟨{ s with conn := conn' }, fields', ?_, ⟨rfl, rfl, rfl, rfl, hcl, order, inverse, hinv, hsort,
      hkept, ?_⟩, ?_⟩
    · have := hpos hcell
      simp [shuffleSect, hno, hc, hcell, hf', show s.rangeMin ≠ 0 by omega]
    · intro _ m f f' hm hm' i c hic
      have := hRA.get (i := m) (List.getElem?_eq_some_iff.1 hm).1 (List.getElem?_eq_some_iff.1 hm').1
      simp only [List.get_eq_getElem] at this
      rw [(List.getElem?_eq_some_iff.1 hm).2, (List.getElem?_eq_some_iff.1 hm').2] at this
      exact this.2.1 i c hic
    · refine hRA.imp (fun f f' h => ⟨h.1, fun k hk => h.2.2 k ?_⟩)
      have := hk hcell
      unfold inWindow at this
      rw [hinv.lenF]; omega
  · refine ⟨{ s with conn := conn' }, fields, ?_, ⟨rfl, rfl, rfl, rfl, hcl, order, inverse, hinv, hsort,
      hkept, fun h => absurd h hcell⟩, ?_⟩
    · simp [shuffleSect, hno, hc, hcell]
    · exact List.forall₂_same.2 (fun f _ => ⟨rfl, fun _ _ => rfl⟩)

theorem forall₂_get? {R : α → α → Prop} {l l' : List α} (h : List.Forall₂ R l l') {m : Nat} {a : α}
    (ha : l[m]? = some a) : ∃ a', l'[m]? = some a' ∧ R a a' := by
  induction h generalizing m with
  | nil => simp at ha
  | cons hr _ ih =>
    cases m with
    | zero => simp at ha; subst ha; exact ⟨_, by simp, hr⟩
    | succ m => simp at ha; simpa using ih ha

theorem forall₂_get?' {R : α → α → Prop} {l l' : List α} (h : List.Forall₂ R l l') {m : Nat} {a' : α}
    (ha : l'[m]? = some a') : ∃ a, l[m]? = some a ∧ R a a' := by
  induction h generalizing m with
  | nil => simp at ha
  | cons hr _ ih =>
    cases m with
    | zero => simp at ha; subst ha; exact ⟨_, by simp, hr⟩
    | succ m => simp at ha; simpa using ih ha

/-- All sections. -/
theorem shuffleSects_kept {n : Nat} {nodeOrder nodeInverse : List Nat}
    (hnode : Inverse n nodeOrder nodeInverse) (ss : List Sect) (fields : List (List α))
    (hconn : ∀ s ∈ ss, s.conn.length = s.parts.length * s.npe)
    (hids : ∀ s ∈ ss, ∀ nid ∈ s.conn, 1 ≤ nid ∧ nid ≤ n)
    (hpos : ∀ s ∈ ss, s.isCell = true → 1 ≤ s.rangeMin)
    (hfl : ∀ s ∈ ss, s.isCell = true → ∀ f ∈ fields, s.rangeMin - 1 + s.parts.length ≤ f.length)
    (hdis : ss.Pairwise (fun s t => s.isCell = true → t.isCell = true →
      ∀ k, ¬ (inWindow s k ∧ inWindow t k))) :
    ∃ ss' fields', shuffleSects nodeInverse ss fields = some (ss', fields') ∧
      List.Forall₂ (SectionKept nodeOrder fields fields') ss ss' ∧
      List.Forall₂ (fun f f' => f'.length = f.length ∧
        ∀ k, (∀ s ∈ ss, s.isCell = true → ¬ inWindow s k) → f'[k]? = f[k]?) fields fields' := by
  induction ss generalizing fields with
  | nil =>
    exact ⟨[], fields, rfl, .nil, List.forall₂_same.2 (fun f _ => ⟨rfl, fun _ _ => rfl⟩)⟩
  | cons s ss ih =>
    obtain ⟨s', f1, h1, k1, w1⟩ := shuffleSect_kept hnode s fields (hconn s (by simp))
      (hids s (by simp)) (hpos s (by simp)) (hfl s (by simp))
    rw [List.pairwise_cons] at hdis
    have hlen1 : ∀ f ∈ f1, ∃ g ∈ fields, f.length = g.length := by
      intro f hf
      obtain ⟨m, hm, rfl⟩ := List.getElem_of_mem hf
      obtain ⟨g, hg, hr⟩ := forall₂_get?' w1 (m := m) (List.getElem?_eq_getElem hm)
      exact ⟨g, List.mem_of_getElem? hg, hr.1⟩
    obtain ⟨ss', f2, h2, k2, w2⟩ := ih f1 (fun t ht => hconn t (by simp [ht]))
      (fun t ht => hids t (by simp [ht])) (fun t ht => hpos t (by simp [ht]))
      (fun t ht hc f hf => by
        obtain ⟨g, hg, hl⟩ := hlen1 f hf
        rw [hl]; exact hfl t (by simp [ht]) hc g hg)
      hdis.2
    refine ⟨s' :: ss', f2, by simp [shuffleSects, h1, h2], .cons ?_ ?_, ?_⟩
    · -- the first section: later sections do not touch its window
      obtain ⟨a1, a2, a3, a4, a5, order, inverse, hinv, hsort, hkept, hfield⟩ := k1
      refine ⟨a1, a2, a3, a4, a5, order, inverse, hinv, hsort, hkept, ?_⟩
      intro hcell m f f' hm hm' i c hic
      obtain ⟨g, hg, hr⟩ := forall₂_get? w1 hm
      obtain ⟨g', hg', hr'⟩ := forall₂_get? w2 hg
      rw [hm'] at hg'; cases hg'
      rw [← hfield hcell m f g hm hg i c hic]
      refine hr'.2 _ (fun t ht htc hw => hdis.1 t ht hcell htc _ ⟨?_, hw⟩)
      have hi : i < s.parts.length := by
        rw [← hinv.lenF]; exact (List.getElem?_eq_some_iff.1 hic).1
      unfold inWindow; omega
    · -- the others: the first section did not touch their windows
      have hmem : ∀ t ∈ ss, t ∈ ss := fun t h => h
      have : List.Forall₂ (fun t t' => t ∈ ss ∧ SectionKept nodeOrder f1 f2 t t') ss ss' := by
        clear ih h2 w2 hdis hfl hpos hids hconn
        have gen : ∀ (l l' : List Sect), (∀ t ∈ l, t ∈ ss) →
            List.Forall₂ (SectionKept nodeOrder f1 f2) l l' →
            List.Forall₂ (fun t t' => t ∈ ss ∧ SectionKept nodeOrder f1 f2 t t') l l' := by
          intro l l' hl h
          induction h with
          | nil => exact .nil
          | cons hr _ ih => exact .cons ⟨hl _ (by simp), hr⟩ (ih (fun t ht => hl t (by simp [ht])))
        exact gen ss ss' hmem k2
      refine this.imp ?_
      rintro t t' ⟨ht, a1, a2, a3, a4, a5, order, inverse, hinv, hsort, hkept, hfield⟩
      refine ⟨a1, a2, a3, a4, a5, order, inverse, hinv, hsort, hkept, ?_⟩
      intro hcell m f f' hm hm' i c hic
      obtain ⟨g, hg, hr⟩ := forall₂_get? w1 hm
      rw [hfield hcell m g f' hg hm' i c hic]
      refine hr.2 _ (fun hsc hw => hdis.1 t ht hsc hcell _ ⟨hw, ?_⟩)
      have hc : c < t.parts.length := inverse_mem hinv (List.mem_of_getElem? hic)
      unfold inWindow; omega
    · -- elements outside all windows
      have : ∀ {l1 l2 l3 : List (List α)},
          List.Forall₂ (fun f f' => f'.length = f.length ∧
            ∀ k, (s.isCell = true → ¬ inWindow s k) → f'[k]? = f[k]?) l1 l2 →
          List.Forall₂ (fun f f' => f'.length = f.length ∧
            ∀ k, (∀ s ∈ ss, s.isCell = true → ¬ inWindow s k) → f'[k]? = f[k]?) l2 l3 →
          List.Forall₂ (fun f f' => f'.length = f.length ∧
            ∀ k, (∀ t ∈ s :: ss, t.isCell = true → ¬ inWindow t k) → f'[k]? = f[k]?) l1 l3 := by
        intro l1 l2 l3 ha hb
        induction ha generalizing l3 with
        | nil => cases hb; exact .nil
        | cons hr _ ih =>
          cases hb with
          | cons hr' ht' =>
            refine .cons ⟨hr'.1.trans hr.1, fun k hk => ?_⟩ (ih ht')
            rw [hr'.2 k (fun t ht => hk t (by simp [ht])), hr.2 k (hk s (by simp))]
      exact this w1 w2

theorem shuffleNodal {n : Nat} {order inverse : List Nat} (hinv : Inverse n order inverse)
    {data : List α} (hl : data.length = n) :
    ∃ r, shuffleData order 0 data = some r ∧ Reordered order data r := by
  obtain ⟨r, hr⟩ := shuffleData_isSome (order := order) (off := 0) (data := data)
    (fun j hj => by have := inverse_mem hinv hj; omega) (by rw [hinv.lenF]; omega)
  refine ⟨r, hr, ?_⟩
  have := shuffleData_spec hr
  exact reordered_of_full this

/-- **C03.** Shuffling a well-formed zone succeeds (no access out of range, no exception)
and only renumbers it: coordinates and nodal fields are reordered by one bijective node
order, sorted by part; each section's elements are reordered by one bijective order,
sorted by part, keep their geometry, and carry their field values along; field values
outside cell sections are untouched. -/
theorem shuffleZone_kept (zn : Zone α) (hwf : WellFormed zn) :
    ∃ zn', shuffleZone zn = some zn' ∧ ZoneKept zn zn' := by
  obtain ⟨order, inverse, hno, hinv, hsort⟩ := getNewOrder_spec zn.nodeParts
  obtain ⟨x, hx, rx⟩ := shuffleNodal hinv hwf.lenX
  obtain ⟨y, hy, ry⟩ := shuffleNodal hinv hwf.lenY
  obtain ⟨z, hz, rz⟩ := shuffleNodal hinv hwf.lenZ
  have hex : ∃ nf, zn.nodeFields.mapM (shuffleData order 0) = some nf := by
    refine mapM_isSome (fun f hf => ?_)
    obtain ⟨r, hr, _⟩ := shuffleNodal hinv (hwf.lenNodeFields f hf)
    simp [hr]
  obtain ⟨nf, hnf⟩ := hex
  obtain ⟨ss, cf, hss, kss, kcf⟩ := shuffleSects_kept hinv zn.sects zn.cellFields hwf.lenConn
    hwf.nodeIds hwf.rangePos hwf.fieldLen hwf.disjoint
  refine ⟨{ zn with x := x, y := y, z := z, nodeFields := nf, cellFields := cf, sects := ss },
    by simp [shuffleZone, hno, hx, hy, hz, hnf, hss], order, inverse, hinv, hsort, rx, ry, rz, ?_,
    kss, kcf⟩
  have h2 := mapM_eq_some.1 hnf
  have gen : ∀ (l l' : List (List α)), (∀ f ∈ l, f.length = zn.nodeParts.length) →
      List.Forall₂ (fun a b => shuffleData order 0 a = some b) l l' →
      List.Forall₂ (Reordered order) l l' := by
    intro l l' hl h
    induction h with
    | nil => exact .nil
    | @cons a _ _ _ hr _ ih =>
      refine .cons ?_ (ih (fun f hf => hl f (by simp [hf])))
      obtain ⟨r, hr', hR⟩ := shuffleNodal hinv (hl a (by simp))
      rw [hr] at hr'; cases hr'; exact hR
  exact gen _ _ hwf.lenNodeFields h2

/-- Consequence of C03 in the user's words: every element of every section sees exactly
the coordinates it saw before. -/
theorem shuffleZone_coordinates (zn zn' : Zone α) (hwf : WellFormed zn)
    (h : shuffleZone zn = some zn') (m : Nat) (s s' : Sect) (hs : zn.sects[m]? = some s)
    (hs' : zn'.sects[m]? = some s') :
    ∃ order inverse, Inverse s.parts.length order inverse ∧
      ∀ (i c k : Nat), order[i]? = some c → k < s.npe →
        nodeValue s.npe s'.conn zn'.x i k = nodeValue s.npe s.conn zn.x c k ∧
        nodeValue s.npe s'.conn zn'.y i k = nodeValue s.npe s.conn zn.y c k ∧
        nodeValue s.npe s'.conn zn'.z i k = nodeValue s.npe s.conn zn.z c k := by
  obtain ⟨zn'', h', order, inverse, hinv, hsort, rx, ry, rz, -, hsec, -⟩ := shuffleZone_kept zn hwf
  rw [h] at h'; cases h'
  obtain ⟨t, ht, hk⟩ := forall₂_get? hsec hs
  rw [hs'] at ht; cases ht
  obtain ⟨-, -, -, -, -, o, o', hinv', -, hkept, -⟩ := hk
  exact ⟨o, o', hinv', fun i c k hic hk => ⟨hkept _ _ _ rx i c k hic hk,
    hkept _ _ _ ry i c k hic hk, hkept _ _ _ rz i c k hic hk⟩⟩

/-- Non-vacuity: two triangles and one boundary edge, a non-involutive node order. -/
def exampleZone : Zone Nat where
  x := [10, 11, 12, 13]
  y := [20, 21, 22, 23]
  z := [30, 31, 32, 33]
  nodeFields := [[1, 2, 3, 4]]
  cellFields := [[100, 200]]
  nodeParts := [2, 0, 1, 0]
  sects := [⟨3, true, 1, [1, 2, 3, 2, 4, 3], [1, 0]⟩, ⟨2, false, 3, [1, 2], [1]⟩]

example : WellFormed exampleZone := by
  refine ⟨rfl, rfl, rfl, ?_, ?_, ?_, ?_, ?_, ?_⟩
  · intro f hf; simp [exampleZone] at hf ⊢; simp [hf]
  · simp [exampleZone]
  · simp [exampleZone]
  · simp [exampleZone]
  · simp [exampleZone]
  · simp [exampleZone]

example : (shuffleZone exampleZone).map (fun z => (z.x, z.sects.map (·.conn), z.cellFields)) =
    some ([11, 13, 12, 10], [[1, 2, 3, 4, 1, 3], [4, 1]], [[200, 100]]) := by decide +kernel

end MiniCFD.Shuffle
