import Verif.Lemmas.Mapper
import Verif.Props.Shuffle

/-
The loops of `Map` and `Shuffle` build and renumber blocks.
-/
namespace MiniCFD.Mapper
open MiniCFD.Shuffle (getNewOrder shuffleData getNewOrder_spec shuffleData_spec shuffleData_isSome
  mapM_length mapM_get mapM_isSome)
open MiniCFD.Spec.Shuffle MiniCFD.Spec.Mapper

/-! ### blocks of a mesh -/

def nodeBlocks : Nat → List Zone → List (Block Nat)
  | _, [] => []
  | iz, zn :: zns => ⟨iz, 1, zn.nNodes⟩ :: nodeBlocks (iz + 1) zns

def sectBlocks (iz : Nat) : Nat → List Sect → List (Block (Nat × Nat))
  | _, [] => []
  | is, s :: ss =>
    (if s.isCell then [⟨(iz, is), s.rangeMin, s.nCells⟩] else []) ++ sectBlocks iz (is + 1) ss

def cellBlocks : Nat → List Zone → List (Block (Nat × Nat))
  | _, [] => []
  | iz, zn :: zns => sectBlocks iz 1 zn.sects ++ cellBlocks (iz + 1) zns

theorem nodeBlocks_append (iz : Nat) (a b : List Zone) :
    nodeBlocks iz (a ++ b) = nodeBlocks iz a ++ nodeBlocks (iz + a.length) b := by
  induction a generalizing iz with
  | nil => simp [nodeBlocks]
  | cons z a ih =>
    simp only [List.cons_append, nodeBlocks, ih, List.length_cons]
    rw [show iz + 1 + a.length = iz + (a.length + 1) by omega]

theorem sectBlocks_append (iz is : Nat) (a b : List Sect) :
    sectBlocks iz is (a ++ b) = sectBlocks iz is a ++ sectBlocks iz (is + a.length) b := by
  induction a generalizing is with
  | nil => simp [sectBlocks]
  | cons z a ih =>
    simp only [List.cons_append, sectBlocks, ih, List.length_cons, List.append_assoc]
    rw [show is + 1 + a.length = is + (a.length + 1) by omega]

theorem cellBlocks_append (iz : Nat) (a b : List Zone) :
    cellBlocks iz (a ++ b) = cellBlocks iz a ++ cellBlocks (iz + a.length) b := by
  induction a generalizing iz with
  | nil => simp [cellBlocks]
  | cons z a ih =>
    simp only [List.cons_append, cellBlocks, ih, List.length_cons, List.append_assoc]
    rw [show iz + 1 + a.length = iz + (a.length + 1) by omega]

theorem mem_nodeBlocks {iz : Nat} {zs : List Zone} {b : Block Nat} :
    b ∈ nodeBlocks iz zs ↔ ∃ j zn, zs[j]? = some zn ∧ b = ⟨iz + j, 1, zn.nNodes⟩ := by
  induction zs generalizing iz with
  | nil => simp [nodeBlocks]
  | cons z zs ih =>
    simp only [nodeBlocks, List.mem_cons, ih]
    constructor
    · rintro (rfl | ⟨j, zn, h, rfl⟩)
      · exact ⟨0, z, by simp, by simp⟩
      · exact ⟨j + 1, zn, by simpa using h, by simp; omega⟩
    · rintro ⟨j, zn, h, rfl⟩
      cases j with
      | zero => left; simp at h; simp [h]
      | succ j => right; exact ⟨j, zn, by simpa using h, by simp; omega⟩

theorem mem_sectBlocks {iz is : Nat} {ss : List Sect} {b : Block (Nat × Nat)} :
    b ∈ sectBlocks iz is ss ↔ ∃ j sc, ss[j]? = some sc ∧ sc.isCell = true ∧
      b = ⟨(iz, is + j), sc.rangeMin, sc.nCells⟩ := by
  induction ss generalizing is with
  | nil => simp [sectBlocks]
  | cons s ss ih =>
    simp only [sectBlocks, List.mem_append, ih]
    constructor
    · rintro (h | ⟨j, sc, h, hc, rfl⟩)
      · split at h
        · rename_i hs
          simp at h
          exact ⟨0, s, by simp, hs, by simp [h]⟩
        · simp at h
      · exact ⟨j + 1, sc, by simpa using h, hc, by simp; omega⟩
    · rintro ⟨j, sc, h, hc, rfl⟩
      cases j with
      | zero => left; simp at h; subst h; simp [hc]
      | succ j => right; exact ⟨j, sc, by simpa using h, hc, by simp; omega⟩

theorem mem_cellBlocks {iz : Nat} {zs : List Zone} {b : Block (Nat × Nat)} :
    b ∈ cellBlocks iz zs ↔ ∃ j zn, zs[j]? = some zn ∧ b ∈ sectBlocks (iz + j) 1 zn.sects := by
  induction zs generalizing iz with
  | nil => simp [cellBlocks]
  | cons z zs ih =>
    simp only [cellBlocks, List.mem_append, ih]
    constructor
    · rintro (h | ⟨j, zn, h, hb⟩)
      · exact ⟨0, z, by simp, by simpa using h⟩
      · refine ⟨j + 1, zn, by simpa using h, ?_⟩
        rwa [show iz + (j + 1) = iz + 1 + j by omega]
    · rintro ⟨j, zn, h, hb⟩
      cases j with
      | zero => left; simp at h; subst h; simpa using hb
      | succ j =>
        right; refine ⟨j, zn, by simpa using h, ?_⟩
        rwa [show iz + 1 + j = iz + (j + 1) by omega]

theorem sz_nodeBlocks (iz : Nat) (zs : List Zone) :
    sz (nodeBlocks iz zs) = (zs.map (·.nNodes)).sum := by
  induction zs generalizing iz with
  | nil => rfl
  | cons z zs ih => simp [nodeBlocks, ih]

theorem sz_sectBlocks (iz is : Nat) (ss : List Sect) :
    sz (sectBlocks iz is ss) = ((ss.filter (·.isCell)).map (·.nCells)).sum := by
  induction ss generalizing is with
  | nil => rfl
  | cons s ss ih =>
    simp only [sectBlocks, sz_append, ih, List.filter_cons]
    split <;> simp_all

theorem sz_cellBlocks (iz : Nat) (zs : List Zone) :
    sz (cellBlocks iz zs) =
      (zs.map (fun zn => ((zn.sects.filter (·.isCell)).map (·.nCells)).sum)).sum := by
  induction zs generalizing iz with
  | nil => rfl
  | cons z zs ih => simp [cellBlocks, ih, sz_sectBlocks]

/-! ### lookups -/

def lookN (c2m : List (List Nat)) (z : Nat) : Option Shifted := (atId c2m z).map (⟨1, ·⟩)

def lookC (c2m : List (List Shifted)) (k : Nat × Nat) : Option Shifted :=
  (atId c2m k.1).bind (fun sv => atId sv k.2)

theorem atId_append_left {α : Type} {l m : List α} {i : Nat} (h : i ≤ l.length) :
    atId (l ++ m) i = atId l i := by
  unfold atId
  split
  · rfl
  · rw [List.getElem?_append_left (by omega)]

theorem atId_snoc {α : Type} {l : List α} {a : α} : atId (l ++ [a]) (l.length + 1) = some a := by
  simp [atId]

theorem atId_set_self {α : Type} {l : List α} {a b : α} {i : Nat} (h : atId l i = some b) :
    atId (l.set (i - 1) a) i = some a := by
  unfold atId at *
  split at h
  · simp at h
  · rename_i hi
    rw [if_neg hi]
    have := (List.getElem?_eq_some_iff.1 h).1
    simp [this]

theorem atId_set_ne {α : Type} {l : List α} {a : α} {i j : Nat} (h : j ≠ i) (hi : i ≠ 0) :
    atId (l.set (i - 1) a) j = atId l j := by
  unfold atId
  split
  · rfl
  · rw [List.getElem?_set_ne (by omega)]

theorem atId_pos {α : Type} {l : List α} {a : α} {i : Nat} (h : atId l i = some a) :
    1 ≤ i ∧ l[i - 1]? = some a := by
  unfold atId at h
  split at h
  · simp at h
  · exact ⟨by omega, h⟩

theorem lookN_append {c2m m : List (List Nat)} {z : Nat} (h : z ≤ c2m.length) :
    lookN (c2m ++ m) z = lookN c2m z := by
  rw [lookN, atId_append_left h]; rfl

theorem lookC_append {c2m m : List (List Shifted)} {k : Nat × Nat} (h : k.1 ≤ c2m.length) :
    lookC (c2m ++ m) k = lookC c2m k := by
  rw [lookC, atId_append_left h]; rfl

theorem lookC_snoc_last {c2m : List (List Shifted)} {sv : List Shifted} {s : Nat} :
    lookC (c2m ++ [sv]) (c2m.length + 1, s) = atId sv s := by
  rw [lookC, atId_snoc]; rfl

/-! ### `Map` -/

theorem nodeLoop_eq (iz k i : Nat) (m2c : List (Nat × Nat)) (nodes : List Nat) (base : Nat) :
    nodeLoop iz k i m2c nodes base =
      (m2c ++ (List.range' i k).map (fun j => (iz, j)), nodes ++ List.range' base k, base + k) := by
  induction k generalizing i m2c nodes base with
  | zero => simp [nodeLoop]
  | succ k ih =>
    rw [nodeLoop, ih]
    simp [List.range'_succ]; omega

theorem cellLoop_eq (iz is npe k i : Nat) (m2c : List ((Nat × Nat) × Nat)) (v ptr : List Nat)
    (p : Nat) :
    cellLoop iz is npe k i m2c v ptr p =
      (m2c ++ (List.range' i k).map (fun j => ((iz, is), j)), v ++ List.range' m2c.length k,
        ptr ++ List.range' (p + npe) k npe, p + npe * k) := by
  induction k generalizing i m2c v ptr p with
  | zero => simp [cellLoop]
  | succ k ih =>
    rw [cellLoop, ih]
    simp [List.range'_succ, Nat.mul_succ]; omega

/-- METIS number of the first node of zone `z`. -/
def nodeOff (Z : List Zone) (z : Nat) : Nat := ((Z.take (z - 1)).map (·.nNodes)).sum

def MeshBlk (Z : List Zone) (ptr idx : List Nat) (b : Block (Nat × Nat)) (off : Nat) : Prop :=
  ∃ zn sc, Z[b.key.1 - 1]? = some zn ∧ zn.sects[b.key.2 - 1]? = some sc ∧ b.shift = sc.rangeMin ∧
    ∀ j < b.n, ∃ p, ptr[off + j]? = some p ∧ ptr[off + j + 1]? = some (p + sc.npe) ∧
      ∀ k < sc.npe, ∃ nid, sc.conn[sc.npe * j + k]? = some nid ∧ nid ≠ 0 ∧
        idx[p + k]? = some (nodeOff Z b.key.1 + nid - 1)

theorem getElem?_append_some {α : Type} {l m : List α} {i : Nat} {a : α} (h : l[i]? = some a) :
    (l ++ m)[i]? = some a := by
  rw [List.getElem?_append_left (List.getElem?_eq_some_iff.1 h).1, h]

theorem MeshBlk.extend {Z : List Zone} {ptr idx ptr' idx' : List Nat} {b : Block (Nat × Nat)}
    {off : Nat} (h : MeshBlk Z ptr idx b off) : MeshBlk Z (ptr ++ ptr') (idx ++ idx') b off := by
  obtain ⟨zn, sc, h1, h2, h3, h4⟩ := h
  refine ⟨zn, sc, h1, h2, h3, fun j hj => ?_⟩
  obtain ⟨p, h5, h6, h7⟩ := h4 j hj
  refine ⟨p, getElem?_append_some h5, getElem?_append_some h6, fun k hk => ?_⟩
  obtain ⟨nid, h8, h9, h10⟩ := h7 k hk
  exact ⟨nid, h8, h9, getElem?_append_some h10⟩

/-- Facts about cells after the blocks `bs`. -/
structure CellInv (Z : List Zone) (m2c : List ((Nat × Nat) × Nat))
    (look : Nat × Nat → Option Shifted) (ptr idx : List Nat) (p : Nat)
    (bs : List (Block (Nat × Nat))) : Prop where
  good : Good m2c look [] bs
  mesh : AllBlk (MeshBlk Z ptr idx) 0 bs
  ptrLen : ptr.length = m2c.length + 1
  ptrLast : ptr[m2c.length]? = some p
  idxLen : idx.length = p

theorem CellInv.look {Z m2c look look' ptr idx p bs} (h : CellInv Z m2c look ptr idx p bs)
    (hk : ∀ c ∈ bs, look' c.key = look c.key) : CellInv Z m2c look' ptr idx p bs := by
  refine ⟨⟨h.good.len, trivial, ?_⟩, h.mesh, h.ptrLen, h.ptrLast, h.idxLen⟩
  exact h.good.hpost.imp (fun c hc o _ _ h3 => h3.frame (hk c hc) (fun _ _ _ => rfl))

theorem CellInv.snoc {Z m2c look look' ptr idx p bs} (h : CellInv Z m2c look ptr idx p bs)
    {z s : Nat} {zn : Zone} {sc : Sect} {idx' : List Nat}
    (hz : Z[z - 1]? = some zn) (hs : zn.sects[s - 1]? = some sc)
    (hk : ∀ c ∈ bs, look' c.key = look c.key)
    (hb : look' (z, s) = some ⟨sc.rangeMin, List.range' m2c.length sc.nCells⟩)
    (hc : sc.npe * sc.nCells ≤ sc.conn.length)
    (hidx : (sc.conn.take (sc.npe * sc.nCells)).mapM
        (fun nid => if nid = 0 then none else some (nodeOff Z z + nid - 1)) = some idx') :
    CellInv Z (m2c ++ (List.range' sc.rangeMin sc.nCells).map (fun i => ((z, s), i))) look'
      (ptr ++ List.range' (p + sc.npe) sc.nCells sc.npe) (idx ++ idx')
      (p + sc.npe * sc.nCells) (bs ++ [⟨(z, s), sc.rangeMin, sc.nCells⟩]) := by
  have hlen := h.good.len
  simp only [sz_nil, Nat.zero_add] at hlen
  have hpl := h.ptrLen
  have hidxl : idx'.length = sc.npe * sc.nCells := by rw [mapM_length hidx]; simp [hc]
  have hptr : ∀ j ≤ sc.nCells, (ptr ++ List.range' (p + sc.npe) sc.nCells sc.npe)[m2c.length + j]?
      = some (p + sc.npe * j) := by
    intro j hj
    cases j with
    | zero => simpa using getElem?_append_some h.ptrLast
    | succ j =>
      rw [List.getElem?_append_right (by omega), List.getElem?_range' (by omega)]
      congr 1
      rw [hpl, show m2c.length + (j + 1) - (m2c.length + 1) = j by omega, Nat.mul_succ]; omega
  refine ⟨h.good.snoc (b := ⟨(z, s), sc.rangeMin, sc.nCells⟩) hk hb, ?_, by simp [hpl]; omega, ?_, by simp [h.idxLen, hidxl]⟩
  · rw [AllBlk.append]
    refine ⟨h.mesh.imp (fun c _ o _ _ h3 => h3.extend), ?_, trivial⟩
    refine ⟨zn, sc, hz, hs, rfl, fun j hj => ⟨p + sc.npe * j, ?_, ?_, fun k hk' => ?_⟩⟩
    · rw [Nat.zero_add, ← hlen]; exact hptr j (Nat.le_of_lt hj)
    · rw [Nat.zero_add, ← hlen, Nat.add_assoc, hptr (j + 1) hj, Nat.mul_succ, Nat.add_assoc]
    · have hlt : sc.npe * j + k < sc.npe * sc.nCells := by
        rw [Nat.mul_comm sc.npe sc.nCells]; exact Shuffle.mul_add_lt hk' hj
      have hg : (sc.conn.take (sc.npe * sc.nCells))[sc.npe * j + k]? =
          some sc.conn[sc.npe * j + k] := by
        rw [List.getElem?_take_of_lt hlt]; simp
      have := mapM_get hidx hg
      have hlt' : sc.npe * j + k < idx'.length := by omega
      rw [List.getElem?_eq_getElem hlt'] at this
      refine ⟨sc.conn[sc.npe * j + k], by simp, ?_, ?_⟩
      · intro h0; rw [if_pos h0] at this; simp at this
      · split at this
        · simp at this
        · rw [List.getElem?_append_right (by rw [h.idxLen]; omega), h.idxLen,
            show p + sc.npe * j + k - p = sc.npe * j + k by omega, List.getElem?_eq_getElem hlt',
            this]
  · have := hptr sc.nCells (le_refl _)
    simpa using this

theorem sectLoop_inv {Z : List Zone} {z : Nat} {zn : Zone} (hz : Z[z - 1]? = some zn)
    {c2m : List (List Shifted)} (hc2m : z = c2m.length + 1)
    {bs : List (Block (Nat × Nat))} (hbs : ∀ b ∈ bs, b.key.1 ≤ c2m.length) :
    ∀ (rest done : List Sect) (st : St) (sv : List Shifted) (st' : St) (sv' : List Shifted),
      zn.sects = done ++ rest → sv.length = done.length →
      CellInv Z st.maps.m2cCells (lookC (c2m ++ [sv])) st.cellPtr st.cellIdx st.pointer
        (bs ++ sectBlocks z 1 done) →
      st.nNodesInPrevZones = nodeOff Z z →
      sectLoop z (done.length + 1) rest st sv = some (st', sv') →
      CellInv Z st'.maps.m2cCells (lookC (c2m ++ [sv'])) st'.cellPtr st'.cellIdx st'.pointer
        (bs ++ sectBlocks z 1 zn.sects) ∧ sv'.length = zn.sects.length ∧
      st'.nNodesInPrevZones = st.nNodesInPrevZones ∧ st'.nNodesInBase = st.nNodesInBase ∧
      st'.maps.m2cNodes = st.maps.m2cNodes ∧ st'.maps.c2mNodes = st.maps.c2mNodes ∧
      st'.maps.c2mCells = st.maps.c2mCells := by
  intro rest
  induction rest with
  | nil =>
    intro done st sv st' sv' hd hl hinv hp h
    simp only [sectLoop, Option.some.injEq, Prod.mk.injEq] at h
    obtain ⟨rfl, rfl⟩ := h
    simp only [List.append_nil] at hd
    rw [hd]
    exact ⟨hinv, hl, rfl, rfl, rfl, rfl, rfl⟩
  | cons sc rest ih =>
    intro done st sv st' sv' hd hl hinv hp h
    simp only [sectLoop, Option.bind_eq_bind, Option.bind_eq_some_iff, Prod.exists] at h
    obtain ⟨st1, sv1, h1, h2⟩ := h
    have hget : zn.sects[done.length + 1 - 1]? = some sc := by rw [hd]; simp
    have hsb : sectBlocks z 1 (done ++ [sc]) = sectBlocks z 1 done ++
        (if sc.isCell then [⟨(z, done.length + 1), sc.rangeMin, sc.nCells⟩] else []) := by
      rw [sectBlocks_append]; simp [sectBlocks, Nat.add_comm]
    have hkey : ∀ (w : Shifted), ∀ c ∈ bs ++ sectBlocks z 1 done,
        lookC (c2m ++ [sv ++ [w]]) c.key = lookC (c2m ++ [sv]) c.key := by
      intro w c hc
      rcases List.mem_append.1 hc with hc | hc
      · have := hbs c hc
        rw [lookC_append this, lookC_append this]
      · obtain ⟨j, sc', hj, -, rfl⟩ := mem_sectBlocks.1 hc
        have := (List.getElem?_eq_some_iff.1 hj).1
        subst hc2m
        rw [lookC_snoc_last, lookC_snoc_last, atId_append_left (by omega)]
    have hdone : zn.sects = (done ++ [sc]) ++ rest := by simp [hd]
    simp only [sectStep] at h1
    split at h1
    · rename_i hcell
      rw [cellLoop_eq] at h1
      simp only at h1
      split at h1
      swap
      · simp at h1
      rename_i hconn
      simp only [Option.bind_eq_bind, Option.bind_eq_some_iff, Option.pure_def,
        Option.some.injEq, Prod.mk.injEq] at h1
      obtain ⟨idx', hidx, rfl, rfl⟩ := h1
      have hnew := hinv.snoc (look' := lookC (c2m ++ [sv ++ [⟨sc.rangeMin,
          [] ++ List.range' st.maps.m2cCells.length sc.nCells⟩]])) hz hget (hkey _)
        (by subst hc2m; rw [lookC_snoc_last, ← hl, atId_snoc]; simp) hconn (by rw [← hp]; exact hidx)
      have hlen1 : (done ++ [sc]).length = done.length + 1 := by simp
      have key := fun a b c => ih (done ++ [sc]) _ _ st' sv' hdone a b c (by rw [hlen1]; exact h2)
      refine key ?_ ?_ ?_
      · simp [hl]
      · rw [hsb, if_pos hcell, ← List.append_assoc]; exact hnew
      · exact hp
    · rename_i hcell
      simp only [Option.some.injEq, Prod.mk.injEq] at h1
      obtain ⟨rfl, rfl⟩ := h1
      have hlen1 : (done ++ [sc]).length = done.length + 1 := by simp
      have key := fun a b c => ih (done ++ [sc]) _ _ st' sv' hdone a b c (by rw [hlen1]; exact h2)
      refine key ?_ ?_ ?_
      · simp [hl]
      · rw [hsb, if_neg hcell, List.append_nil]; exact hinv.look (hkey _)
      · exact hp

/-- Invariant of the zone loop. -/
structure ZoneInv (Z : List Zone) (done : List Zone) (st : St) : Prop where
  nodes : Good st.maps.m2cNodes (lookN st.maps.c2mNodes) [] (nodeBlocks 1 done)
  cells : CellInv Z st.maps.m2cCells (lookC st.maps.c2mCells) st.cellPtr st.cellIdx st.pointer
    (cellBlocks 1 done)
  lenN : st.maps.c2mNodes.length = done.length
  lenC : st.maps.c2mCells.length = done.length
  base : st.nNodesInBase = (done.map (·.nNodes)).sum
  prev : st.nNodesInPrevZones = (done.map (·.nNodes)).sum
  lenS : List.Forall₂ (fun (zn : Zone) (sv : List Shifted) => sv.length = zn.sects.length) done
    st.maps.c2mCells

theorem zoneStep_inv {Z done rest : List Zone} {zn : Zone} {st st' : St}
    (hZ : Z = done ++ zn :: rest) (hinv : ZoneInv Z done st)
    (h : zoneStep (done.length + 1) zn st = some st') : ZoneInv Z (done ++ [zn]) st' := by
  simp only [zoneStep, nodeLoop_eq, Option.bind_eq_bind, Option.bind_eq_some_iff, Prod.exists,
    Option.pure_def, Option.some.injEq] at h
  obtain ⟨st2, sv, h1, rfl⟩ := h
  have hz : Z[done.length + 1 - 1]? = some zn := by rw [hZ]; simp
  have hoff : nodeOff Z (done.length + 1) = (done.map (·.nNodes)).sum := by
    rw [nodeOff, hZ]; simp
  have hcl := hinv.lenC
  have hbs : ∀ b ∈ cellBlocks 1 done, b.key.1 ≤ st.maps.c2mCells.length := by
    intro b hb
    obtain ⟨j, zn', hj, hb⟩ := mem_cellBlocks.1 hb
    obtain ⟨j', sc, hj', -, rfl⟩ := mem_sectBlocks.1 hb
    have := (List.getElem?_eq_some_iff.1 hj).1
    simp only; omega
  have key := sectLoop_inv (bs := cellBlocks 1 done) hz (c2m := st.maps.c2mCells) (by omega) hbs
    zn.sects [] _ [] st2 sv (by simp) rfl (by
      simp only [sectBlocks, List.append_nil]
      refine hinv.cells.look (fun c hc => lookC_append (hbs c hc))) (by rw [hoff]; exact hinv.prev) h1
  simp only at key
  obtain ⟨k1, k2, k3, k4, k5, k6, k7⟩ := key
  have hm : st.maps.m2cNodes.length = (done.map (·.nNodes)).sum := by
    have := hinv.nodes.len
    simpa [sz_nodeBlocks] using this
  constructor
  · simp only
    rw [k5, k6, nodeBlocks_append]
    simp only [nodeBlocks]
    rw [show (1 : Nat) + done.length = done.length + 1 by omega]
    refine hinv.nodes.snoc (b := ⟨done.length + 1, 1, zn.nNodes⟩) ?_ ?_
    · intro c hc
      obtain ⟨j, zn', hj, rfl⟩ := mem_nodeBlocks.1 hc
      have := (List.getElem?_eq_some_iff.1 hj).1
      exact lookN_append (by rw [hinv.lenN]; simp only; omega)
    · simp only [lookN]
      rw [← hinv.lenN, atId_snoc, hm, hinv.base]; simp
  · simp only
    rw [k7, cellBlocks_append]
    simp only [cellBlocks, List.append_nil]
    rw [show (1 : Nat) + done.length = done.length + 1 by omega]
    exact k1
  · simp only; rw [k6]; simp [hinv.lenN]
  · simp only; rw [k7]; simp [hinv.lenC]
  · simp only; rw [k4, hinv.base]; simp
  · simp only; rw [k3, hinv.prev]; simp
  · simp only; rw [k7]
    exact List.rel_append hinv.lenS (.cons k2 .nil)

theorem zoneLoop_inv {Z : List Zone} : ∀ (rest done : List Zone) (st st' : St),
    Z = done ++ rest → ZoneInv Z done st →
    zoneLoop (done.length + 1) rest st = some st' → ZoneInv Z Z st' := by
  intro rest
  induction rest with
  | nil =>
    intro done st st' hZ hinv h
    simp only [zoneLoop, Option.some.injEq] at h
    subst h
    simp only [List.append_nil] at hZ
    subst hZ; exact hinv
  | cons zn rest ih =>
    intro done st st' hZ hinv h
    simp only [zoneLoop, Option.bind_eq_bind, Option.bind_eq_some_iff] at h
    obtain ⟨st1, h1, h2⟩ := h
    exact ih (done ++ [zn]) st1 st' (by simp [hZ]) (zoneStep_inv hZ hinv h1) (by simpa using h2)

theorem map_inv {Z : List Zone} {st : St} (h : map Z = some st) : ZoneInv Z Z st := by
  refine zoneLoop_inv Z [] {} st rfl ?_ h
  exact ⟨⟨rfl, trivial, trivial⟩, ⟨⟨rfl, trivial, trivial⟩, trivial, rfl, rfl, rfl⟩, rfl, rfl, rfl,
    rfl, .nil⟩

/-! ### from blocks to the specification -/

theorem isNode_iff {zones : List Zone} {z i : Nat} :
    IsNode zones z i ↔ ∃ b ∈ nodeBlocks 1 zones, b.key = z ∧ b.shift ≤ i ∧ i < b.shift + b.n := by
  constructor
  · rintro ⟨zn, h1, h2, h3, h4⟩
    exact ⟨_, mem_nodeBlocks.2 ⟨z - 1, zn, h2, rfl⟩, by simp only; omega, h3, by simp only; omega⟩
  · rintro ⟨b, hb, rfl, h2, h3⟩
    obtain ⟨j, zn, hj, rfl⟩ := mem_nodeBlocks.1 hb
    simp only at h2 h3 ⊢
    exact ⟨zn, by omega, by rw [Nat.add_sub_cancel_left]; exact hj, h2, by omega⟩

theorem isCell_iff {zones : List Zone} {z s i : Nat} :
    IsCell zones z s i ↔
      ∃ b ∈ cellBlocks 1 zones, b.key = (z, s) ∧ b.shift ≤ i ∧ i < b.shift + b.n := by
  constructor
  · rintro ⟨zn, sc, h1, h2, h3, h4, h5, h6, h7⟩
    refine ⟨_, mem_cellBlocks.2 ⟨z - 1, zn, h2, mem_sectBlocks.2 ⟨s - 1, sc, h4, h5, rfl⟩⟩, ?_,
      h6, h7⟩
    simp only [Prod.mk.injEq]; omega
  · rintro ⟨b, hb, h1, h2, h3⟩
    obtain ⟨j, zn, hj, hb⟩ := mem_cellBlocks.1 hb
    obtain ⟨j', sc, hj', hc, rfl⟩ := mem_sectBlocks.1 hb
    simp only [Prod.mk.injEq] at h1 h2 h3
    obtain ⟨rfl, rfl⟩ := h1
    exact ⟨zn, sc, by omega, by rw [Nat.add_sub_cancel_left]; exact hj, by omega,
      by rw [Nat.add_sub_cancel_left]; exact hj', hc, h2, h3⟩

theorem nodeNumber_eq (mp : Maps) (z i : Nat) :
    nodeNumber mp z i = (lookN mp.c2mNodes z).bind (fun v => v.at i) := by
  unfold nodeNumber lookN
  cases atId mp.c2mNodes z with
  | none => rfl
  | some v =>
    simp only [Option.map_some, Option.bind_some, atId, Shifted.at]
    by_cases h : i = 0
    · simp [h]
    · rw [if_neg h, if_neg (by omega)]

theorem cellNumber_eq (mp : Maps) (z s i : Nat) :
    cellNumber mp z s i = (lookC mp.c2mCells (z, s)).bind (fun v => v.at i) := by
  unfold cellNumber lookC
  cases atId mp.c2mCells z <;> rfl

theorem nodesInverse_of_good {zones : List Zone} {mp : Maps} {pre post : List (Block Nat)}
    (hb : pre ++ post = nodeBlocks 1 zones)
    (h : Good mp.m2cNodes (lookN mp.c2mNodes) pre post) : NodesInverse zones mp := by
  refine ⟨?_, ?_, ?_⟩
  · rw [h.len, ← sz_append, hb, sz_nodeBlocks]
  · intro z i hz
    obtain ⟨b, hb', rfl, h2, h3⟩ := isNode_iff.1 hz
    rw [← hb] at hb'
    obtain ⟨v, m, h4, h5, h6⟩ := h.there hb' (i := i - b.shift) (by omega)
    rw [Nat.add_sub_cancel' h2] at h5 h6
    exact ⟨m, by rw [nodeNumber_eq, h4]; exact h5, h6⟩
  · intro m z i hm
    obtain ⟨b, hb', h1, h2, h3, v, h4, h5⟩ := h.back hm
    rw [hb] at hb'
    exact ⟨isNode_iff.2 ⟨b, hb', h1, h2, h3⟩, by rw [nodeNumber_eq, h4]; exact h5⟩

theorem cellsInverse_of_good {zones : List Zone} {mp : Maps} {pre post : List (Block (Nat × Nat))}
    (hb : pre ++ post = cellBlocks 1 zones)
    (h : Good mp.m2cCells (lookC mp.c2mCells) pre post) : CellsInverse zones mp := by
  refine ⟨?_, ?_, ?_⟩
  · rw [h.len, ← sz_append, hb, sz_cellBlocks]
  · intro z s i hz
    obtain ⟨b, hb', h1, h2, h3⟩ := isCell_iff.1 hz
    rw [← hb] at hb'
    obtain ⟨v, m, h4, h5, h6⟩ := h.there hb' (i := i - b.shift) (by omega)
    rw [Nat.add_sub_cancel' h2, h1] at *
    exact ⟨m, by rw [cellNumber_eq, h4]; exact h5, h6⟩
  · intro m z s i hm
    obtain ⟨b, hb', h1, h2, h3, v, h4, h5⟩ := h.back hm
    rw [hb] at hb'
    exact ⟨isCell_iff.2 ⟨b, hb', h1, h2, h3⟩, by rw [cellNumber_eq, h4]; exact h5⟩

end MiniCFD.Mapper
