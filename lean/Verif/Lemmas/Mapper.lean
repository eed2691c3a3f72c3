import Verif.Lemmas.Shuffle
import Verif.Spec.Mapper
import Mathlib.Algebra.BigOperators.Group.List.Basic

/-
Generic theory of "blocks": a flat array `m2c` of (key, id) pairs that consists of
consecutive blocks, one per key, and a lookup `look` giving for each key its vector of
positions.
-/
namespace MiniCFD.Mapper
open MiniCFD.Shuffle MiniCFD.Spec.Shuffle MiniCFD.Spec.Mapper

structure Block (K : Type) where
  key : K
  shift : Nat
  n : Nat

variable {K : Type}

def sz (bs : List (Block K)) : Nat := (bs.map (·.n)).sum

@[simp] theorem sz_nil : sz ([] : List (Block K)) = 0 := rfl
@[simp] theorem sz_cons (b : Block K) (bs) : sz (b :: bs) = b.n + sz bs := rfl
@[simp] theorem sz_append (bs cs : List (Block K)) : sz (bs ++ cs) = sz bs + sz cs := by
  simp [sz]

/-- `P block offset` for every block of a list that starts at the given offset. -/
def AllBlk (P : Block K → Nat → Prop) : Nat → List (Block K) → Prop
  | _, [] => True
  | off, b :: bs => P b off ∧ AllBlk P (off + b.n) bs

theorem AllBlk.append {P : Block K → Nat → Prop} {off : Nat} {bs cs : List (Block K)} :
    AllBlk P off (bs ++ cs) ↔ AllBlk P off bs ∧ AllBlk P (off + sz bs) cs := by
  induction bs generalizing off with
  | nil => simp [AllBlk]
  | cons b bs ih => simp [AllBlk, ih, and_assoc, Nat.add_assoc]

theorem AllBlk.imp {P Q : Block K → Nat → Prop} {off : Nat} {bs : List (Block K)}
    (h : AllBlk P off bs)
    (hpq : ∀ b ∈ bs, ∀ o, off ≤ o → o + b.n ≤ off + sz bs → P b o → Q b o) :
    AllBlk Q off bs := by
  induction bs generalizing off with
  | nil => trivial
  | cons b bs ih =>
    refine ⟨hpq b (by simp) off (le_refl _) (by simp) h.1, ih h.2 ?_⟩
    intro b' hb' o h1 h2 h3
    exact hpq b' (by simp [hb']) o (by omega) (by simp; omega) h3

theorem AllBlk.mem {P : Block K → Nat → Prop} {off : Nat} {bs : List (Block K)}
    (h : AllBlk P off bs) {b : Block K} (hb : b ∈ bs) :
    ∃ o, off ≤ o ∧ o + b.n ≤ off + sz bs ∧ P b o := by
  induction bs generalizing off with
  | nil => simp at hb
  | cons c bs ih =>
    rcases List.mem_cons.1 hb with rfl | hb
    · exact ⟨off, le_refl _, by simp, h.1⟩
    · obtain ⟨o, h1, h2, h3⟩ := ih h.2 hb
      exact ⟨o, by omega, by simp; omega, h3⟩

/-- Every position lies in some block. -/
theorem AllBlk.cover {P : Block K → Nat → Prop} {off : Nat} {bs : List (Block K)}
    (h : AllBlk P off bs) {m : Nat} (h1 : off ≤ m) (h2 : m < off + sz bs) :
    ∃ b ∈ bs, ∃ o, o ≤ m ∧ m < o + b.n ∧ P b o := by
  induction bs generalizing off with
  | nil => simp at h2; omega
  | cons c bs ih =>
    by_cases hm : m < off + c.n
    · exact ⟨c, by simp, off, h1, hm, h.1⟩
    · obtain ⟨b, hb, o, h3⟩ := ih h.2 (by omega) (by simp at h2; omega)
      exact ⟨b, by simp [hb], o, h3⟩

/-- The block at offset `off` is numbered through mutually inverse renumberings. -/
def BlkOk (m2c : List (K × Nat)) (look : K → Option Shifted) (b : Block K) (off : Nat) : Prop :=
  ∃ v, look b.key = some v ∧ v.shift = b.shift ∧ v.data.length = b.n ∧
    ∃ f g, Inverse b.n f g ∧
      (∀ (i j : Nat), f[i]? = some j → v.data[i]? = some (off + j)) ∧
      (∀ (j i : Nat), g[j]? = some i → m2c[off + j]? = some (b.key, b.shift + i))

/-- The block at offset `off` is numbered consecutively. -/
def BlkId (m2c : List (K × Nat)) (look : K → Option Shifted) (b : Block K) (off : Nat) : Prop :=
  ∃ v, look b.key = some v ∧ v.shift = b.shift ∧ v.data.length = b.n ∧
    (∀ i : Nat, i < b.n → v.data[i]? = some (off + i)) ∧
    (∀ i : Nat, i < b.n → m2c[off + i]? = some (b.key, b.shift + i))

theorem inverse_range (n : Nat) : Inverse n (List.range n) (List.range n) := by
  refine ⟨by simp, by simp, fun i hi => ⟨i, hi, ?_, ?_⟩, fun i hi => ⟨i, hi, ?_, ?_⟩⟩ <;>
    simp [hi]

theorem BlkId.ok {m2c : List (K × Nat)} {look : K → Option Shifted} {b : Block K} {off : Nat}
    (h : BlkId m2c look b off) : BlkOk m2c look b off := by
  obtain ⟨v, h1, h2, h3, h4, h5⟩ := h
  refine ⟨v, h1, h2, h3, _, _, inverse_range b.n, ?_, ?_⟩
  · intro i j hij
    obtain ⟨hi, rfl⟩ := List.getElem?_eq_some_iff.1 hij
    simp at hi
    simpa using h4 i hi
  · intro i j hij
    obtain ⟨hi, rfl⟩ := List.getElem?_eq_some_iff.1 hij
    simp at hi
    simpa using h5 i hi

theorem BlkOk.frame {m2c m2c' : List (K × Nat)} {look look' : K → Option Shifted} {b : Block K}
    {off : Nat} (h : BlkOk m2c look b off) (hl : look' b.key = look b.key)
    (hm : ∀ k, off ≤ k → k < off + b.n → m2c'[k]? = m2c[k]?) : BlkOk m2c' look' b off := by
  obtain ⟨v, h1, h2, h3, f, g, hi, h4, h5⟩ := h
  refine ⟨v, by rw [hl, h1], h2, h3, f, g, hi, h4, ?_⟩
  intro j i hji
  have := (List.getElem?_eq_some_iff.1 hji).1
  rw [hi.lenG] at this
  rw [hm _ (by omega) (by omega), h5 j i hji]

theorem BlkId.frame {m2c m2c' : List (K × Nat)} {look look' : K → Option Shifted} {b : Block K}
    {off : Nat} (h : BlkId m2c look b off) (hl : look' b.key = look b.key)
    (hm : ∀ k, off ≤ k → k < off + b.n → m2c'[k]? = m2c[k]?) : BlkId m2c' look' b off := by
  obtain ⟨v, h1, h2, h3, h4, h5⟩ := h
  refine ⟨v, by rw [hl, h1], h2, h3, h4, ?_⟩
  intro i hi
  rw [hm _ (by omega) (by omega), h5 i hi]

/-- `pre` blocks are renumbered, `post` blocks still consecutive. -/
structure Good (m2c : List (K × Nat)) (look : K → Option Shifted) (pre post : List (Block K)) :
    Prop where
  len : m2c.length = sz pre + sz post
  hpre : AllBlk (BlkOk m2c look) 0 pre
  hpost : AllBlk (BlkId m2c look) (sz pre) post

theorem Good.all {m2c : List (K × Nat)} {look : K → Option Shifted} {pre post : List (Block K)}
    (h : Good m2c look pre post) : AllBlk (BlkOk m2c look) 0 (pre ++ post) := by
  rw [AllBlk.append]
  refine ⟨h.hpre, ?_⟩
  rw [Nat.zero_add]
  exact h.hpost.imp (fun _ _ _ _ _ h => h.ok)

/-- Appending a consecutive block. -/
theorem Good.snoc {m2c : List (K × Nat)} {look look' : K → Option Shifted}
    {bs : List (Block K)} {b : Block K} (h : Good m2c look [] bs)
    (hk : ∀ c ∈ bs, look' c.key = look c.key)
    (hb : look' b.key = some ⟨b.shift, List.range' m2c.length b.n⟩) :
    Good (m2c ++ (List.range' b.shift b.n).map (fun i => (b.key, i))) look' [] (bs ++ [b]) := by
  have hlen := h.len
  simp only [sz_nil, Nat.zero_add] at hlen
  refine ⟨by simp [hlen], trivial, ?_⟩
  rw [AllBlk.append]
  simp only [sz_nil, Nat.zero_add]
  constructor
  · have := h.hpost
    simp only [sz_nil] at this
    refine this.imp (fun c hc o _ h2 h3 => h3.frame (hk c hc) ?_)
    intro k _ hk2
    rw [List.getElem?_append_left (by omega)]
  · refine ⟨⟨_, hb, rfl, by simp, ?_, ?_⟩, trivial⟩
    · intro i hi; simp [List.getElem?_range', hi, hlen]
    · intro i hi
      rw [List.getElem?_append_right (by omega)]
      simp [List.getElem?_range', hi, hlen]

/-- What one shuffle of a block does. -/
theorem BlkId.shuffle {m2c m2c' : List (K × Nat)} {look look' : K → Option Shifted}
    {b : Block K} {off : Nat} {v : Shifted} {data' : List Nat} {f g : List Nat}
    (h : BlkId m2c look b off) (hv : look b.key = some v) (hi : Inverse b.n f g)
    (hd : ReorderedAt 0 f v.data data') (hm : ReorderedAt off g m2c m2c')
    (hl : look' b.key = some ⟨v.shift, data'⟩) : BlkOk m2c' look' b off := by
  obtain ⟨v', h1, h2, h3, h4, h5⟩ := h
  rw [hv] at h1
  obtain rfl := Option.some.inj h1
  obtain ⟨hd1, hd2, hd3⟩ := hd
  obtain ⟨hm1, hm2, hm3⟩ := hm
  refine ⟨_, hl, h2, by simp [hd1, h3], f, g, hi, ?_, ?_⟩
  · intro i j hij
    have := hd2 i j hij
    simp only [Nat.zero_add] at this
    have hi' : i < b.n := by rw [← hi.lenF]; exact (List.getElem?_eq_some_iff.1 hij).1
    obtain ⟨j', hj', he, -⟩ := hi.left i hi'
    rw [hij] at he
    obtain rfl := Option.some.inj he
    show data'[i]? = _
    rw [this, h4 j hj']
  · intro j i hji
    have hj' : j < b.n := by rw [← hi.lenG]; exact (List.getElem?_eq_some_iff.1 hji).1
    obtain ⟨i', hi', he, -⟩ := hi.right j hj'
    rw [hji] at he
    obtain rfl := Option.some.inj he
    rw [hm2 j i hji, h5 i hi']

theorem Good.step {m2c m2c' : List (K × Nat)} {look look' : K → Option Shifted}
    {pre post : List (Block K)} {b : Block K} {v : Shifted} {data' f g : List Nat}
    (h : Good m2c look pre (b :: post)) (hv : look b.key = some v) (hi : Inverse b.n f g)
    (hd : ReorderedAt 0 f v.data data') (hm : ReorderedAt (sz pre) g m2c m2c')
    (hl : look' b.key = some ⟨v.shift, data'⟩)
    (hk : ∀ c ∈ pre ++ post, look' c.key = look c.key) :
    Good m2c' look' (pre ++ [b]) post := by
  have hlen := h.len
  have hpost := h.hpost
  simp only [sz_cons] at hlen
  obtain ⟨hb, hpost⟩ := hpost
  have hgl := hi.lenG
  refine ⟨by rw [hm.1, hlen]; simp; omega, ?_, ?_⟩
  · rw [AllBlk.append]
    refine ⟨h.hpre.imp ?_, ?_, trivial⟩
    · intro c hc o h1 h2 h3
      refine h3.frame (hk c (by simp [hc])) (fun k hk1 hk2 => hm.2.2 k ?_)
      omega
    · rw [Nat.zero_add]
      exact hb.shuffle hv hi hd hm hl
  · simp only [sz_append, sz_cons, sz_nil, Nat.add_zero]
    refine hpost.imp ?_
    intro c hc o h1 h2 h3
    refine h3.frame (hk c (by simp [hc])) (fun k hk1 hk2 => hm.2.2 k ?_)
    omega

/-- In the new order, part numbers do not decrease and ties keep the METIS order. -/
def BlkSorted (parts : List Nat) (look : K → Option Shifted) (b : Block K) : Prop :=
  ∀ v, look b.key = some v → ∀ (i i' m m' p p' : Nat), i < i' → v.data[i]? = some m →
    v.data[i']? = some m' → parts[m]? = some p → parts[m']? = some p' →
    p < p' ∨ (p = p' ∧ m < m')

/-- `Good`, and the renumbered blocks are sorted by part. -/
structure GoodS (parts : List Nat) (m2c : List (K × Nat)) (look : K → Option Shifted)
    (pre post : List (Block K)) : Prop where
  good : Good m2c look pre post
  sorted : ∀ b ∈ pre, BlkSorted parts look b

theorem GoodS.step {parts : List Nat} {m2c m2c' : List (K × Nat)} {look look' : K → Option Shifted}
    {pre post : List (Block K)} {b : Block K} {v : Shifted} {data' f g : List Nat}
    (h : GoodS parts m2c look pre (b :: post)) (hv : look b.key = some v) (hi : Inverse b.n f g)
    (hs : StablySorted ((parts.drop (sz pre)).take b.n) f)
    (hd : ReorderedAt 0 f v.data data') (hm : ReorderedAt (sz pre) g m2c m2c')
    (hl : look' b.key = some ⟨v.shift, data'⟩)
    (hk : ∀ c ∈ pre ++ post, look' c.key = look c.key) :
    GoodS parts m2c' look' (pre ++ [b]) post := by
  refine ⟨h.good.step hv hi hd hm hl hk, ?_⟩
  intro c hc
  rcases List.mem_append.1 hc with hc | hc
  · intro v' hv'
    rw [hk c (by simp [hc])] at hv'
    exact h.sorted c hc v' hv'
  · simp only [List.mem_singleton] at hc
    subst hc
    intro v' hv' i i' m m' p p' hlt h1 h2 h3 h4
    rw [hl] at hv'
    obtain rfl := Option.some.inj hv'
    obtain ⟨w, hw, -, hwl, hid, -⟩ := h.good.hpost.1
    rw [hv] at hw
    obtain rfl := Option.some.inj hw
    simp only at h1 h2
    have hlen : data'.length = c.n := by rw [hd.1, hwl]
    have key : ∀ (i m : Nat), data'[i]? = some m →
        ∃ j, j < c.n ∧ f[i]? = some j ∧ m = sz pre + j := by
      intro i m h1
      have hil : i < c.n := by rw [← hlen]; exact (List.getElem?_eq_some_iff.1 h1).1
      obtain ⟨j, hj, hf, -⟩ := hi.left i hil
      have := hd.2.1 i j hf
      rw [Nat.zero_add, Nat.zero_add, h1, hid j hj] at this
      exact ⟨j, hj, hf, Option.some.inj this⟩
    obtain ⟨j, hj, hf, rfl⟩ := key i m h1
    obtain ⟨j', hj', hf', rfl⟩ := key i' m' h2
    have := hs i i' j j' p p' hlt hf hf'
      (by rw [List.getElem?_take_of_lt hj, List.getElem?_drop]; exact h3)
      (by rw [List.getElem?_take_of_lt hj', List.getElem?_drop]; exact h4)
    omega

/-- The two directions, in terms of the generic lookup. -/
theorem Good.there {m2c : List (K × Nat)} {look : K → Option Shifted} {pre post : List (Block K)}
    (h : Good m2c look pre post) {b : Block K} (hb : b ∈ pre ++ post) {i : Nat} (hi : i < b.n) :
    ∃ (v : Shifted) (m : Nat), look b.key = some v ∧ v.at (b.shift + i) = some m ∧
      m2c[m]? = some (b.key, b.shift + i) := by
  obtain ⟨o, -, -, v, h1, h2, h3, f, g, hfg, h4, h5⟩ := h.all.mem hb
  obtain ⟨j, hj, hf, hg⟩ := hfg.left i hi
  refine ⟨v, o + j, h1, ?_, h5 j i hg⟩
  simp only [Shifted.at, h2]
  rw [if_neg (by omega), Nat.add_sub_cancel_left, h4 i j hf]

theorem Good.back {m2c : List (K × Nat)} {look : K → Option Shifted} {pre post : List (Block K)}
    (h : Good m2c look pre post) {m : Nat} {k : K} {i : Nat} (hm : m2c[m]? = some (k, i)) :
    ∃ b ∈ pre ++ post, b.key = k ∧ b.shift ≤ i ∧ i < b.shift + b.n ∧
      ∃ v, look k = some v ∧ v.at i = some m := by
  have hlt := (List.getElem?_eq_some_iff.1 hm).1
  rw [h.len] at hlt
  obtain ⟨b, hb, o, h0, h0', v, h1, h2, h3, f, g, hfg, h4, h5⟩ :=
    h.all.cover (Nat.zero_le m) (by simpa using hlt)
  obtain ⟨j, hj, hg, hf⟩ := hfg.right (m - o) (by omega)
  have := h5 _ _ hg
  rw [Nat.add_sub_cancel' h0, hm] at this
  simp only [Option.some.injEq, Prod.mk.injEq] at this
  obtain ⟨rfl, rfl⟩ := this
  refine ⟨b, hb, rfl, by omega, by omega, v, h1, ?_⟩
  simp only [Shifted.at, h2]
  rw [if_neg (by omega), Nat.add_sub_cancel_left, h4 j _ hf]
  congr 1; omega

end MiniCFD.Mapper
