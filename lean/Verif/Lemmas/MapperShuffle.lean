import Verif.Lemmas.MapperLoops

/-
`Shuffle` renumbers each block of the maps once.
-/
namespace MiniCFD.Mapper
open MiniCFD.Shuffle (getNewOrder shuffleData getNewOrder_spec shuffleData_spec shuffleData_isSome
  mapM_length mapM_get mapM_isSome)
open MiniCFD.Spec.Shuffle MiniCFD.Spec.Mapper

theorem lookC_set_self {c2m : List (List Shifted)} {sv : List Shifted} {v w : Shifted} {z s : Nat}
    (h1 : atId c2m z = some sv) (h2 : atId sv s = some v) :
    lookC (c2m.set (z - 1) (sv.set (s - 1) w)) (z, s) = some w := by
  rw [lookC]
  simp only
  rw [atId_set_self h1, Option.bind_some, atId_set_self h2]

theorem lookC_set_ne {c2m : List (List Shifted)} {sv : List Shifted} {v w : Shifted} {z s : Nat}
    {k : Nat × Nat} (h1 : atId c2m z = some sv) (h2 : atId sv s = some v) (hk : k ≠ (z, s)) :
    lookC (c2m.set (z - 1) (sv.set (s - 1) w)) k = lookC c2m k := by
  obtain ⟨z', s'⟩ := k
  have hz := (atId_pos h1).1
  have hs := (atId_pos h2).1
  simp only [lookC]
  by_cases hzz : z' = z
  · subst hzz
    rw [atId_set_self h1, h1, Option.bind_some, Option.bind_some,
      atId_set_ne (fun h => hk (by rw [h])) (by omega)]
  · rw [atId_set_ne hzz (by omega)]

theorem lookN_set_self {c2m : List (List Nat)} {v w : List Nat} {z : Nat}
    (h1 : atId c2m z = some v) : lookN (c2m.set (z - 1) w) z = some ⟨1, w⟩ := by
  rw [lookN, atId_set_self h1]; rfl

theorem lookN_set_ne {c2m : List (List Nat)} {v w : List Nat} {z k : Nat}
    (h1 : atId c2m z = some v) (hk : k ≠ z) : lookN (c2m.set (z - 1) w) k = lookN c2m k := by
  have := (atId_pos h1).1
  rw [lookN, atId_set_ne hk (by omega)]; rfl

theorem inverse_lt {n : Nat} {f g : List Nat} (h : Inverse n f g) :
    (∀ j ∈ f, j < n) ∧ (∀ j ∈ g, j < n) := by
  constructor
  · intro j hj
    obtain ⟨i, hi, rfl⟩ := List.getElem_of_mem hj
    obtain ⟨j, h1, h2, -⟩ := h.left i (by rw [← h.lenF]; exact hi)
    rw [List.getElem?_eq_getElem hi] at h2
    rw [Option.some.inj h2]; exact h1
  · intro j hj
    obtain ⟨i, hi, rfl⟩ := List.getElem_of_mem hj
    obtain ⟨j, h1, h2, -⟩ := h.right i (by rw [← h.lenG]; exact hi)
    rw [List.getElem?_eq_getElem hi] at h2
    rw [Option.some.inj h2]; exact h1

theorem sectBlocks_key_lt {iz is : Nat} {ss : List Sect} {b : Block (Nat × Nat)}
    (h : b ∈ sectBlocks iz is ss) : b.key.1 = iz ∧ is ≤ b.key.2 ∧ b.key.2 < is + ss.length := by
  obtain ⟨j, sc, hj, -, rfl⟩ := mem_sectBlocks.1 h
  have := (List.getElem?_eq_some_iff.1 hj).1
  refine ⟨rfl, ?_, ?_⟩ <;> dsimp only <;> omega

theorem cellBlocks_key {iz : Nat} {zs : List Zone} {b : Block (Nat × Nat)}
    (h : b ∈ cellBlocks iz zs) : iz ≤ b.key.1 ∧ b.key.1 < iz + zs.length := by
  obtain ⟨j, zn, hj, hb⟩ := mem_cellBlocks.1 h
  have := (List.getElem?_eq_some_iff.1 hj).1
  have := (sectBlocks_key_lt hb).1
  omega

theorem nodeBlocks_key {iz : Nat} {zs : List Zone} {b : Block Nat}
    (h : b ∈ nodeBlocks iz zs) : iz ≤ b.key ∧ b.key < iz + zs.length := by
  obtain ⟨j, zn, hj, rfl⟩ := mem_nodeBlocks.1 h
  have := (List.getElem?_eq_some_iff.1 hj).1
  simp only; omega

/-- One cell section. -/
theorem shuffleSectMaps_inv {cp : List Nat} {z s : Nat} {sc : Sect} {mp mp' : Maps}
    {pre post : List (Block (Nat × Nat))} (hc : sc.isCell = true)
    (hne : ∀ b ∈ pre ++ post, b.key ≠ (z, s))
    (hg : GoodS cp mp.m2cCells (lookC mp.c2mCells) pre (⟨(z, s), sc.rangeMin, sc.nCells⟩ :: post))
    (h : shuffleSectMaps cp z s sc mp = some mp') :
    GoodS cp mp'.m2cCells (lookC mp'.c2mCells) (pre ++ [⟨(z, s), sc.rangeMin, sc.nCells⟩]) post ∧
      mp'.m2cNodes = mp.m2cNodes ∧ mp'.c2mNodes = mp.c2mNodes := by
  simp only [shuffleSectMaps, hc, if_true, Option.bind_eq_bind, Option.bind_eq_some_iff] at h
  obtain ⟨sv, h1, v, h2, off, h3, h4⟩ := h
  split at h4
  swap
  · simp at h4
  rename_i hlen
  simp only [Option.bind_eq_some_iff, Option.pure_def, Option.some.injEq, Prod.exists] at h4
  obtain ⟨n2o, o2n, h5, m2c, h6, data, h7, rfl⟩ := h4
  have hv : lookC mp.c2mCells (z, s) = some v := by
    simp only [lookC]; rw [h1, Option.bind_some, h2]
  obtain ⟨f, g, h8, hinv, hsort⟩ := getNewOrder_spec ((cp.drop off).take sc.nCells)
  rw [h5] at h8
  simp only [Option.some.injEq, Prod.mk.injEq] at h8
  obtain ⟨rfl, rfl⟩ := h8
  have hn : ((cp.drop off).take sc.nCells).length = sc.nCells := by simp; omega
  rw [hn] at hinv
  -- the offset read is the block's offset
  have hoff : off = sz pre := by
    obtain ⟨v', hv', hs, hl, hd, -⟩ := hg.good.hpost.1
    simp only at hv' hs hl hd
    rw [hv] at hv'
    obtain rfl := Option.some.inj hv'
    simp only [Shifted.at] at h3
    rw [hs, if_neg (by omega), Nat.sub_self] at h3
    have h0 := (List.getElem?_eq_some_iff.1 h3).1
    have := hd 0 (by omega)
    rw [h3] at this
    simpa using this
  subst hoff
  refine ⟨hg.step (v := v) hv hinv hsort (shuffleData_spec h7) (shuffleData_spec h6)
    (lookC_set_self h1 h2) ?_, rfl, rfl⟩
  intro c hcm
  exact lookC_set_ne h1 h2 (hne c hcm)

theorem shuffleSectsMaps_inv {cp : List Nat} {z : Nat} : ∀ (rest : List Sect) (s : Nat)
    (pre post : List (Block (Nat × Nat))) (mp mp' : Maps),
    (∀ b ∈ pre, b.key.1 < z ∨ (b.key.1 = z ∧ b.key.2 < s)) → (∀ b ∈ post, z < b.key.1) →
    GoodS cp mp.m2cCells (lookC mp.c2mCells) pre (sectBlocks z s rest ++ post) →
    shuffleSectsMaps cp z s rest mp = some mp' →
    GoodS cp mp'.m2cCells (lookC mp'.c2mCells) (pre ++ sectBlocks z s rest) post ∧
      mp'.m2cNodes = mp.m2cNodes ∧ mp'.c2mNodes = mp.c2mNodes := by
  intro rest
  induction rest with
  | nil =>
    intro s pre post mp mp' _ _ hg h
    simp only [shuffleSectsMaps, Option.some.injEq] at h
    subst h
    simpa [sectBlocks] using hg
  | cons sc rest ih =>
    intro s pre post mp mp' hpre hpost hg h
    simp only [shuffleSectsMaps, Option.bind_eq_bind, Option.bind_eq_some_iff] at h
    obtain ⟨mp1, h1, h2⟩ := h
    by_cases hc : sc.isCell = true
    · simp only [sectBlocks, hc, if_true, List.cons_append, List.nil_append] at hg
      have hne : ∀ b ∈ pre ++ (sectBlocks z (s + 1) rest ++ post), b.key ≠ (z, s) := by
        intro b hb hk
        rcases List.mem_append.1 hb with hb | hb
        · have := hpre b hb; rw [hk] at this; simp at this
        · rcases List.mem_append.1 hb with hb | hb
          · have := sectBlocks_key_lt hb; rw [hk] at this; dsimp only at this; omega
          · have := hpost b hb; rw [hk] at this; simp at this
      obtain ⟨hg1, e1, e2⟩ := shuffleSectMaps_inv hc hne hg h1
      obtain ⟨hg2, e3, e4⟩ := ih (s + 1) _ _ mp1 mp' (by
        intro b hb
        rcases List.mem_append.1 hb with hb | hb
        · have := hpre b hb; omega
        · simp at hb; subst hb; simp) hpost hg1 h2
      simp only [sectBlocks, hc, if_true]
      rw [← List.append_assoc]
      exact ⟨hg2, e3.trans e1, e4.trans e2⟩
    · simp only [sectBlocks, hc, List.nil_append] at hg ⊢
      simp only [shuffleSectMaps, hc] at h1
      obtain rfl := Option.some.inj h1
      exact ih (s + 1) pre post mp mp' (fun b hb => by have := hpre b hb; omega) hpost hg h2

theorem shuffleZoneMaps_inv {np cp : List Nat} {done rest : List Zone} {zn : Zone} {mp mp' : Maps}
    (hn : GoodS np mp.m2cNodes (lookN mp.c2mNodes) (nodeBlocks 1 done)
      (nodeBlocks (done.length + 1) (zn :: rest)))
    (hc : GoodS cp mp.m2cCells (lookC mp.c2mCells) (cellBlocks 1 done)
      (cellBlocks (done.length + 1) (zn :: rest)))
    (h : shuffleZoneMaps np cp (done.length + 1) zn mp = some mp') :
    GoodS np mp'.m2cNodes (lookN mp'.c2mNodes) (nodeBlocks 1 (done ++ [zn]))
      (nodeBlocks (done.length + 2) rest) ∧
    GoodS cp mp'.m2cCells (lookC mp'.c2mCells) (cellBlocks 1 (done ++ [zn]))
      (cellBlocks (done.length + 2) rest) := by
  simp only [shuffleZoneMaps, Option.bind_eq_bind, Option.bind_eq_some_iff] at h
  obtain ⟨v, h1, off, h2, h3⟩ := h
  split at h3
  swap
  · simp at h3
  rename_i hlen
  simp only [Option.bind_eq_some_iff, Prod.exists] at h3
  obtain ⟨n2o, o2n, h5, data, h6, m2c, h7, h8⟩ := h3
  have hv : lookN mp.c2mNodes (done.length + 1) = some ⟨1, v⟩ := by
    simp only [lookN]; rw [h1]; rfl
  obtain ⟨f, g, h9, hinv, hsort⟩ := getNewOrder_spec ((np.drop off).take zn.nNodes)
  rw [h5] at h9
  simp only [Option.some.injEq, Prod.mk.injEq] at h9
  obtain ⟨rfl, rfl⟩ := h9
  have hnl : ((np.drop off).take zn.nNodes).length = zn.nNodes := by simp; omega
  rw [hnl] at hinv
  have hoff : off = sz (nodeBlocks 1 done) := by
    obtain ⟨v', hv', hs, hl, hd, -⟩ := hn.good.hpost.1
    simp only at hv' hs hl hd
    rw [hv] at hv'
    obtain rfl := Option.some.inj hv'
    have h0 := (List.getElem?_eq_some_iff.1 h2).1
    have := hd 0 (by simp only at hl; omega)
    simp only at this
    rw [h2] at this
    simpa using this
  subst hoff
  have e1 : (1 : Nat) + done.length = done.length + 1 := by omega
  obtain ⟨k1, k2, k3⟩ := shuffleSectsMaps_inv zn.sects 1 (cellBlocks 1 done)
    (cellBlocks (done.length + 2) rest)
    { mp with m2cNodes := m2c, c2mNodes := mp.c2mNodes.set (done.length + 1 - 1) data } mp' (by
      intro b hb; have := cellBlocks_key hb; omega) (by
      intro b hb; have := cellBlocks_key hb; omega) hc h8
  constructor
  · rw [k2, k3, nodeBlocks_append, e1]
    refine hn.step (v := ⟨1, v⟩) hv hinv hsort (shuffleData_spec h6) (shuffleData_spec h7)
      (lookN_set_self h1) ?_
    intro c hcm
    refine lookN_set_ne h1 ?_
    rcases List.mem_append.1 hcm with hb | hb
    · have := nodeBlocks_key hb; omega
    · have := nodeBlocks_key hb; omega
  · rw [cellBlocks_append, e1]
    simp only [cellBlocks, List.append_nil]
    exact k1

theorem shuffleMapsLoop_inv {np cp : List Nat} : ∀ (rest done : List Zone) (mp mp' : Maps),
    GoodS np mp.m2cNodes (lookN mp.c2mNodes) (nodeBlocks 1 done) (nodeBlocks (done.length + 1) rest) →
    GoodS cp mp.m2cCells (lookC mp.c2mCells) (cellBlocks 1 done) (cellBlocks (done.length + 1) rest) →
    shuffleMapsLoop np cp (done.length + 1) rest mp = some mp' →
    GoodS np mp'.m2cNodes (lookN mp'.c2mNodes) (nodeBlocks 1 (done ++ rest)) [] ∧
    GoodS cp mp'.m2cCells (lookC mp'.c2mCells) (cellBlocks 1 (done ++ rest)) [] := by
  intro rest
  induction rest with
  | nil =>
    intro done mp mp' hn hc h
    simp only [shuffleMapsLoop, Option.some.injEq] at h
    subst h
    rw [List.append_nil]; exact ⟨hn, hc⟩
  | cons zn rest ih =>
    intro done mp mp' hn hc h
    simp only [shuffleMapsLoop, Option.bind_eq_bind, Option.bind_eq_some_iff] at h
    obtain ⟨mp1, h1, h2⟩ := h
    obtain ⟨hn1, hc1⟩ := shuffleZoneMaps_inv hn hc h1
    have hl : (done ++ [zn]).length + 1 = done.length + 2 := by simp
    have := ih (done ++ [zn]) mp1 mp' (by rw [hl]; exact hn1) (by rw [hl]; exact hc1)
      (by rw [hl]; exact h2)
    simpa using this

/-! ### totality -/

theorem shuffleSectsMaps_isSome {cp : List Nat} {z : Nat} (rest : List Sect) :
    ∀ (s : Nat) (pre post : List (Block (Nat × Nat))) (mp : Maps),
    (∀ b ∈ pre, b.key.1 < z ∨ (b.key.1 = z ∧ b.key.2 < s)) → (∀ b ∈ post, z < b.key.1) →
    (∀ sc ∈ rest, sc.isCell = true → 0 < sc.nCells) →
    cp.length = mp.m2cCells.length →
    GoodS cp mp.m2cCells (lookC mp.c2mCells) pre (sectBlocks z s rest ++ post) →
    ∃ mp', shuffleSectsMaps cp z s rest mp = some mp' := by
  induction rest with
  | nil => intro s pre post mp _ _ _ _ _; exact ⟨mp, rfl⟩
  | cons sc rest ih =>
    intro s pre post mp hpre hpost hne hcp hg
    by_cases hc : sc.isCell = true
    · simp only [sectBlocks, hc, if_true, List.cons_append, List.nil_append] at hg
      have hpos := hne sc (by simp) hc
      obtain ⟨⟨v, hv, hs, hl, hd, hm⟩, -⟩ := hg.good.hpost
      simp only at hv hs hl hd hm
      have hv' := hv
      simp only [lookC, Option.bind_eq_some_iff] at hv'
      obtain ⟨sv, h1, h2⟩ := hv'
      have h3 : v.at sc.rangeMin = some (sz pre) := by
        simp only [Shifted.at, hs]
        rw [if_neg (by omega), Nat.sub_self, hd 0 hpos]; rfl
      have hlen : sz pre + sc.nCells ≤ cp.length := by
        rw [hcp, hg.good.len]; simp
      obtain ⟨f, g, h5, hinv, -⟩ := getNewOrder_spec ((cp.drop (sz pre)).take sc.nCells)
      have hn : ((cp.drop (sz pre)).take sc.nCells).length = sc.nCells := by simp; omega
      rw [hn] at hinv
      obtain ⟨m2c, h6⟩ := shuffleData_isSome (order := g) (off := sz pre) (data := mp.m2cCells)
        (fun j hj => by have := (inverse_lt hinv).2 j hj; omega)
        (by rw [hinv.lenG]; omega)
      obtain ⟨data, h7⟩ := shuffleData_isSome (order := f) (off := 0) (data := v.data)
        (fun j hj => by have := (inverse_lt hinv).1 j hj; omega)
        (by rw [hinv.lenF]; omega)
      have hstep : ∃ mp1, shuffleSectMaps cp z s sc mp = some mp1 ∧
          mp1.m2cCells.length = mp.m2cCells.length := by
        refine ⟨⟨mp.m2cNodes, m2c, mp.c2mNodes, mp.c2mCells.set (z - 1)
            (sv.set (s - 1) ⟨v.shift, data⟩)⟩, ?_, (shuffleData_spec h6).1⟩
        simp only [shuffleSectMaps, hc, if_true, h1, h2, h3, Option.bind_eq_bind,
          Option.bind_some, if_pos hlen, h5, h6, h7]
        rfl
      obtain ⟨mp1, hmp1, hl1⟩ := hstep
      have hne' : ∀ b ∈ pre ++ (sectBlocks z (s + 1) rest ++ post), b.key ≠ (z, s) := by
        intro b hb hk
        rcases List.mem_append.1 hb with hb | hb
        · have := hpre b hb; rw [hk] at this; simp at this
        · rcases List.mem_append.1 hb with hb | hb
          · have := sectBlocks_key_lt hb; rw [hk] at this; dsimp only at this; omega
          · have := hpost b hb; rw [hk] at this; simp at this
      obtain ⟨hg1, -, -⟩ := shuffleSectMaps_inv hc hne' hg hmp1
      obtain ⟨mp', h⟩ := ih (s + 1) _ _ mp1 (by
        intro b hb
        rcases List.mem_append.1 hb with hb | hb
        · have := hpre b hb; omega
        · simp at hb; subst hb; simp) hpost (fun sc' h => hne sc' (by simp [h])) (by omega) hg1
      exact ⟨mp', by simp [shuffleSectsMaps, hmp1, h]⟩
    · simp only [sectBlocks, hc, List.nil_append] at hg
      obtain ⟨mp', h⟩ := ih (s + 1) pre post mp (fun b hb => by have := hpre b hb; omega) hpost
        (fun sc' h => hne sc' (by simp [h])) hcp hg
      exact ⟨mp', by simp [shuffleSectsMaps, shuffleSectMaps, hc, h]⟩

theorem shuffleMapsLoop_isSome {np cp : List Nat} : ∀ (rest done : List Zone) (mp : Maps),
    NonEmpty rest → np.length = mp.m2cNodes.length → cp.length = mp.m2cCells.length →
    GoodS np mp.m2cNodes (lookN mp.c2mNodes) (nodeBlocks 1 done) (nodeBlocks (done.length + 1) rest) →
    GoodS cp mp.m2cCells (lookC mp.c2mCells) (cellBlocks 1 done) (cellBlocks (done.length + 1) rest) →
    ∃ mp', shuffleMapsLoop np cp (done.length + 1) rest mp = some mp' := by
  intro rest
  induction rest with
  | nil => intro done mp _ _ _ _ _; exact ⟨mp, rfl⟩
  | cons zn rest ih =>
    intro done mp hne hnp hcp hn hc
    obtain ⟨hpos, hnes⟩ := hne zn (by simp)
    obtain ⟨⟨v, hv, hs, hl, hd, hm⟩, -⟩ := hn.good.hpost
    simp only at hv hs hl hd hm
    have hv' := hv
    simp only [lookN, Option.map_eq_some_iff] at hv'
    obtain ⟨v, h1, rfl⟩ := hv'
    simp only at hl hd
    have h2 : v[0]? = some (sz (nodeBlocks 1 done)) := by simpa using hd 0 hpos
    have hlen : sz (nodeBlocks 1 done) + zn.nNodes ≤ np.length := by
      rw [hnp, hn.good.len]; simp [nodeBlocks]
    obtain ⟨f, g, h5, hinv, -⟩ := getNewOrder_spec
      ((np.drop (sz (nodeBlocks 1 done))).take zn.nNodes)
    have hnl : ((np.drop (sz (nodeBlocks 1 done))).take zn.nNodes).length = zn.nNodes := by
      simp; omega
    rw [hnl] at hinv
    obtain ⟨m2c, h6⟩ := shuffleData_isSome (order := g) (off := sz (nodeBlocks 1 done))
      (data := mp.m2cNodes)
      (fun j hj => by have := (inverse_lt hinv).2 j hj; omega)
      (by rw [hinv.lenG]; omega)
    obtain ⟨data, h7⟩ := shuffleData_isSome (order := f) (off := 0) (data := v)
      (fun j hj => by have := (inverse_lt hinv).1 j hj; omega)
      (by rw [hinv.lenF]; omega)
    obtain ⟨mp1, h8⟩ := shuffleSectsMaps_isSome (cp := cp) zn.sects 1 (cellBlocks 1 done)
      (cellBlocks (done.length + 2) rest)
      { mp with m2cNodes := m2c, c2mNodes := mp.c2mNodes.set (done.length + 1 - 1) data } (by
        intro b hb; have := cellBlocks_key hb; omega) (by
        intro b hb; have := cellBlocks_key hb; omega) hnes hcp hc
    have hstep : shuffleZoneMaps np cp (done.length + 1) zn mp = some mp1 := by
      simp only [shuffleZoneMaps, h1, h2, Option.bind_eq_bind, Option.bind_some, if_pos hlen,
        h5, h6, h7]
      exact h8
    obtain ⟨hn1, hc1⟩ := shuffleZoneMaps_inv hn hc hstep
    have hl' : (done ++ [zn]).length + 1 = done.length + 2 := by simp
    have hsum : ∀ {m2c : List (Nat × Nat)} {look}, Good m2c look (nodeBlocks 1 (done ++ [zn]))
        (nodeBlocks (done.length + 2) rest) → m2c.length = mp.m2cNodes.length := by
      intro m2c look h
      rw [h.len, hn.good.len, nodeBlocks_append]; simp [nodeBlocks, Nat.add_assoc]
    have hsumc : ∀ {m2c : List ((Nat × Nat) × Nat)} {look}, Good m2c look
        (cellBlocks 1 (done ++ [zn]))
        (cellBlocks (done.length + 2) rest) → m2c.length = mp.m2cCells.length := by
      intro m2c look h
      rw [h.len, hc.good.len, cellBlocks_append]
      simp [cellBlocks, Nat.add_comm 1 done.length, Nat.add_assoc]
    obtain ⟨mp', h⟩ := ih (done ++ [zn]) mp1 (fun z hz => hne z (by simp [hz]))
      (by rw [hsum hn1.good]; exact hnp) (by rw [hsumc hc1.good]; exact hcp)
      (by rw [hl']; exact hn1) (by rw [hl']; exact hc1)
    rw [hl'] at h
    exact ⟨mp', by simp [shuffleMapsLoop, hstep, h]⟩

theorem sectLoop_isSome {z n : Nat} : ∀ (rest : List Sect) (s : Nat) (st : St) (sv : List Shifted),
    (∀ sc ∈ rest, sc.isCell = true →
      sc.npe * sc.nCells ≤ sc.conn.length ∧ ∀ nid ∈ sc.conn, 1 ≤ nid ∧ nid ≤ n) →
    ∃ r, sectLoop z s rest st sv = some r := by
  intro rest
  induction rest with
  | nil => intro s st sv _; exact ⟨_, rfl⟩
  | cons sc rest ih =>
    intro s st sv hv
    have hr := fun s st sv => ih s st sv (fun c hc => hv c (by simp [hc]))
    by_cases hc : sc.isCell = true
    · obtain ⟨h1, h2⟩ := hv sc (by simp) hc
      obtain ⟨idx, hidx⟩ := mapM_isSome (l := sc.conn.take (sc.npe * sc.nCells))
        (f := fun nid => if nid = 0 then none else some (st.nNodesInPrevZones + nid - 1)) (by
          intro nid hnid
          have := h2 nid (List.mem_of_mem_take hnid)
          rw [if_neg (by omega)]; rfl)
      have : ∃ r, sectStep z s sc st sv = some r := by
        exact Option.isSome_iff_exists.1 (by simp [sectStep, hc, h1, hidx])
      obtain ⟨⟨st1, sv1⟩, h3⟩ := this
      obtain ⟨r, h4⟩ := hr (s + 1) st1 sv1
      exact ⟨r, by simp [sectLoop, h3, h4]⟩
    · obtain ⟨r, h4⟩ := hr (s + 1) st (sv ++ [⟨0, []⟩])
      exact ⟨r, by simp [sectLoop, sectStep, hc, h4]⟩

theorem zoneLoop_isSome : ∀ (zones : List Zone) (z : Nat) (st : St), ValidMesh zones →
    ∃ st', zoneLoop z zones st = some st' := by
  intro zones
  induction zones with
  | nil => intro z st _; exact ⟨st, rfl⟩
  | cons zn zones ih =>
    intro z st hv
    have : ∃ st1, zoneStep z zn st = some st1 := by
      obtain ⟨⟨st2, sv⟩, h⟩ := sectLoop_isSome (z := z) (n := zn.nNodes) zn.sects 1
        { st with
          maps := { st.maps with
            m2cNodes := (nodeLoop z zn.nNodes 1 st.maps.m2cNodes [] st.nNodesInBase).1 },
          nNodesInBase := (nodeLoop z zn.nNodes 1 st.maps.m2cNodes [] st.nNodesInBase).2.2 }
        [] (hv zn (by simp))
      exact Option.isSome_iff_exists.1 (by
        simp only [zoneStep, h, Option.bind_eq_bind, Option.bind_some]
        rfl)
    obtain ⟨st1, h1⟩ := this
    obtain ⟨st', h2⟩ := ih (z + 1) st1 (fun z hz => hv z (by simp [hz]))
    exact ⟨st', by simp [zoneLoop, h1, h2]⟩

end MiniCFD.Mapper
