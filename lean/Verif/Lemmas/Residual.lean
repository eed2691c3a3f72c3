import Verif.Spec.Residual
import Verif.Lemmas.Projection
import Verif.Props.Column
import Mathlib.Algebra.BigOperators.Ring.Finset
import Mathlib.Algebra.BigOperators.Fin
import Mathlib.Data.List.FinRange
import Mathlib.Tactic.Linarith
import Mathlib.Tactic.Ring

/-! # Facts on the assembly of residuals -/

namespace MiniCFD.Residual

open MiniCFD.Column MiniCFD.Projection MiniCFD.Spec.Column MiniCFD.Spec.Residual

variable {Pt : Type} {K n : Nat}

theorem sum_map_neg {α : Type*} (f : α → ℝ) (l : List α) :
    (l.map fun a => -f a).sum = -(l.map f).sum := by
  induction l with
  | nil => simp
  | cons a as ih => simp only [List.map_cons, List.sum_cons, ih]; ring

/-! ### Collecting -/

theorem collect_append {α β : Type*} (f : α → Option (List β)) (l l' : List α) :
    collect f (l ++ l') = (collect f l).bind fun x => (collect f l').map (x ++ ·) := by
  induction l with
  | nil => simp [collect]
  | cons a as ih =>
    simp only [List.cons_append, collect, ih]
    cases f a <;> simp
    cases collect f as <;> simp
    cases collect f l' <;> simp

theorem collect_sum {α β : Type*} {f : α → Option (List β)} {g : β → ℝ} {G : α → ℝ} {l : List α}
    {y : List β} (h : ∀ a ∈ l, ∀ x, f a = some x → (x.map g).sum = G a) (hc : collect f l = some y) :
    (y.map g).sum = (l.map G).sum := by
  induction l generalizing y with
  | nil => simp only [collect, Option.some.injEq] at hc; subst hc; simp
  | cons a as ih =>
    simp only [collect, Option.bind_eq_bind, Option.bind_eq_some_iff] at hc
    obtain ⟨x, h1, z, h2, h3⟩ := hc
    simp only [Option.some.injEq] at h3
    subst h3
    rw [List.map_append, List.sum_append, h a (by simp) x h1,
      ih (fun b hb => h b (List.mem_cons_of_mem _ hb)) h2]
    simp

theorem collect_mem {α β : Type*} {f : α → Option (List β)} {Q : β → Prop} {l : List α}
    {y : List β} (h : ∀ a ∈ l, ∀ x, f a = some x → ∀ b ∈ x, Q b) (hc : collect f l = some y) :
    ∀ b ∈ y, Q b := by
  induction l generalizing y with
  | nil => simp only [collect, Option.some.injEq] at hc; subst hc; simp
  | cons a as ih =>
    simp only [collect, Option.bind_eq_bind, Option.bind_eq_some_iff] at hc
    obtain ⟨x, h1, z, h2, h3⟩ := hc
    simp only [Option.some.injEq] at h3
    subst h3
    intro b hb
    rcases List.mem_append.1 hb with hb | hb
    · exact h a (by simp) x h1 b hb
    · exact ih (fun b hb => h b (List.mem_cons_of_mem _ hb)) h2 b hb

theorem collect_total {α β : Type*} {f : α → Option (List β)} {l : List α}
    (h : ∀ a ∈ l, ∃ x, f a = some x) : ∃ y, collect f l = some y := by
  induction l with
  | nil => exact ⟨[], rfl⟩
  | cons a as ih =>
    obtain ⟨x, hx⟩ := h a (by simp)
    obtain ⟨y, hy⟩ := ih fun b hb => h b (List.mem_cons_of_mem _ hb)
    exact ⟨x ++ y, by simp [collect, hx, hy]⟩

theorem collect_perm {α β : Type*} {f : α → Option (List β)} {l l' : List α} (hp : l.Perm l')
    {y : List β} (hc : collect f l = some y) : ∃ y', collect f l' = some y' ∧ y.Perm y' := by
  induction hp generalizing y with
  | nil => exact ⟨y, hc, .refl _⟩
  | @cons a as as' _ ih =>
    simp only [collect, Option.bind_eq_bind, Option.bind_eq_some_iff, Option.some.injEq] at hc ⊢
    obtain ⟨x, h1, z, h2, rfl⟩ := hc
    obtain ⟨z', h3, h4⟩ := ih h2
    exact ⟨x ++ z', ⟨x, h1, z', h3, rfl⟩, List.Perm.append_left x h4⟩
  | swap a b as =>
    simp only [collect, Option.bind_eq_bind, Option.bind_eq_some_iff, Option.some.injEq] at hc ⊢
    obtain ⟨x, h1, _, ⟨x', h2, z, h3, rfl⟩, rfl⟩ := hc
    refine ⟨x' ++ (x ++ z), ⟨x', h2, x ++ z, ⟨x, h1, z, h3, rfl⟩, rfl⟩, ?_⟩
    rw [← List.append_assoc, ← List.append_assoc]
    exact List.Perm.append_right z List.perm_append_comm
  | trans _ _ ih1 ih2 =>
    obtain ⟨y1, h1, h2⟩ := ih1 hc
    obtain ⟨y2, h3, h4⟩ := ih2 h1
    exact ⟨y2, h3, h2.trans h4⟩

/-! ### What one contribution adds -/

theorem loopOrder_getElem? (m : Coeff K n) (r : Fin K) (i : Fin (n + 1)) :
    (loopOrder m)[i.val * K + r.val]? = some (m r i) := by
  have hK : 0 < K := Nat.lt_of_le_of_lt (Nat.zero_le _) r.2
  have hlt : i.val * K + r.val < (n + 1) * K := by
    have : (i.val + 1) * K ≤ (n + 1) * K := Nat.mul_le_mul_right _ i.2
    rw [Nat.add_mul] at this
    have := r.2
    omega
  rw [← write_eq]
  unfold write
  rw [List.getElem?_ofFn, dif_pos hlt]
  congr 1
  congr 1
  · apply Fin.ext
    simp [Fin.modNat, Nat.mod_eq_of_lt r.2]
  · apply Fin.ext
    simp [Fin.divNat, Nat.add_div_of_dvd_right, Nat.mul_div_cancel _ hK, Nat.div_eq_of_lt r.2]

theorem loopOrder_length (m : Coeff K n) : (loopOrder m).length = (n + 1) * K := by
  rw [← write_eq, write_length]

theorem amount_addCoeff (p p' : Nat) (m : Coeff K n) (r : Fin K) (i : Fin (n + 1)) :
    amount p' (i.val * K + r.val) (addCoeff p m) = if p = p' then m r i else 0 := by
  unfold amount addCoeff
  simp only [Nat.zero_le, and_true, Nat.sub_zero, loopOrder_getElem?, Option.getD_some]

theorem amount_minusCoeff (p p' : Nat) (m : Coeff K n) (r : Fin K) (i : Fin (n + 1)) :
    amount p' (i.val * K + r.val) (minusCoeff p m) = if p = p' then -m r i else 0 :=
  amount_addCoeff p p' (fun r c => -m r c) r i

theorem amount_addValue (p p' : Nat) (j : Fin (n + 1)) (v : Value K) (r : Fin K) (i : Fin (n + 1)) :
    amount p' (i.val * K + r.val) (addValue p j.val v) = if p = p' ∧ j = i then v r else 0 := by
  have hr := r.2
  unfold amount addValue
  simp only
  by_cases hp : p = p'
  · by_cases hj : j = i
    · subst hj
      rw [if_pos ⟨hp, by rw [Nat.mul_comm]; omega⟩, if_pos ⟨hp, rfl⟩]
      have : j.val * K + r.val - K * j.val = r.val := by rw [Nat.mul_comm]; omega
      rw [this, List.getElem?_ofFn, dif_pos hr]
      rfl
    · rw [if_neg (c := p = p' ∧ j = i) fun h => hj h.2]
      by_cases hle : K * j.val ≤ i.val * K + r.val
      · rw [if_pos ⟨hp, hle⟩, List.getElem?_eq_none]
        · rfl
        · rw [List.length_ofFn]
          have hlt : j.val < i.val := by
            by_contra hc
            have h1 : i.val + 1 ≤ j.val := by
              have : i.val ≠ j.val := fun h => hj (Fin.ext h.symm)
              omega
            have := Nat.mul_le_mul_left K h1
            rw [Nat.mul_add, Nat.mul_comm K i.val] at this
            omega
          have := Nat.mul_le_mul_left K (show j.val + 1 ≤ i.val from hlt)
          rw [Nat.mul_add, Nat.mul_comm K i.val] at this
          omega
      · rw [if_neg fun h => hle h.2]
  · rw [if_neg fun h => hp h.1, if_neg fun h => hp h.1]

theorem amount_minusValue (p p' : Nat) (j : Fin (n + 1)) (v : Value K) (r : Fin K) (i : Fin (n + 1)) :
    amount p' (i.val * K + r.val) (minusValue p j.val v) = if p = p' ∧ j = i then -v r else 0 :=
  amount_addValue p p' j (fun r => -v r) r i

/-! ### The assembled column -/

/-- A contribution that stays in the block of its cell. -/
def Fits (P : Part Pt K n) (c : Contribution ℝ) : Prop :=
  c.cell < P.count ∧ c.shift + c.data.length ≤ (n + 1) * K

theorem fits_addCoeff (P : Part Pt K n) (p : Fin P.count) (m : Coeff K n) : Fits P (addCoeff p.val m) :=
  ⟨p.2, by simp [addCoeff, loopOrder_length]⟩

theorem fits_minusCoeff (P : Part Pt K n) (p : Fin P.count) (m : Coeff K n) : Fits P (minusCoeff p.val m) :=
  fits_addCoeff P p fun r c => -m r c

theorem fits_addValue (P : Part Pt K n) (p : Fin P.count) (i : Fin (n + 1)) (v : Value K) :
    Fits P (addValue p.val i.val v) := by
  refine ⟨p.2, ?_⟩
  simp only [addValue, List.length_ofFn]
  have := Nat.mul_le_mul_left K (show i.val + 1 ≤ n + 1 from i.2)
  rw [Nat.mul_comm (n + 1)]
  rw [Nat.mul_add] at this
  omega

theorem fits_minusValue (P : Part Pt K n) (p : Fin P.count) (i : Fin (n + 1)) (v : Value K) :
    Fits P (minusValue p.val i.val v) := fits_addValue P p i fun r => -v r

theorem divergences_fit (P : Part Pt K n) : ∀ c ∈ divergences P, Fits P c := by
  intro c hc
  simp only [divergences, divergence, List.mem_flatMap, List.mem_map] at hc
  obtain ⟨p, -, v, -, rfl⟩ := hc
  exact fits_addCoeff P p _

/-- A scheme that writes into the cell it is told to. -/
def Scheme.Local (S : Scheme Pt K n) (P : Part Pt K n) : Prop :=
  ∀ b (p : Fin P.count) q flux a, S.put b p.val (P.cells p) q flux = some a → Fits P a

theorem general_local (P : Part Pt K n) : (general : Scheme Pt K n).Local P := by
  intro b p q flux a h
  simp only [general, Option.some.injEq] at h
  subst h
  split
  · exact fits_addCoeff P p _
  · exact fits_minusCoeff P p _

theorem lobatto_local (near : Pt → Pt → Bool) (P : Part Pt K n) :
    (lobatto near : Scheme Pt K n).Local P := by
  intro b p q flux a h
  simp only [lobatto, Option.bind_eq_bind, Option.bind_eq_some_iff, Option.some.injEq] at h
  obtain ⟨i, -, rfl⟩ := h
  split
  · exact fits_addValue P p i _
  · exact fits_minusValue P p i _

theorem contributions_fit {S : Scheme Pt K n} {P : Part Pt K n} (hS : S.Local P) {vol : Bool}
    {c : Conditions Pt K} {t : ℝ} {cs : List (Contribution ℝ)}
    (h : contributions S vol P c t = some cs) : ∀ x ∈ cs, Fits P x := by
  simp only [contributions, Option.bind_eq_bind, Option.bind_eq_some_iff, Option.some.injEq] at h
  obtain ⟨a, ha, b, hb, g, hg, rfl⟩ := h
  intro x hx
  simp only [List.mem_append] at hx
  rcases hx with ((hx | hx) | hx) | hx
  · split at hx
    · exact divergences_fit P x hx
    · exact absurd hx (by simp)
  · refine collect_mem (fun f _ y hy => ?_) ha x hx
    refine collect_mem (fun q _ z hz => ?_) hy
    simp only [Option.bind_eq_bind, Option.bind_eq_some_iff, Option.some.injEq] at hz
    obtain ⟨u, -, v, -, a1, h1, a2, h2, rfl⟩ := hz
    intro b hb
    simp only [List.mem_cons, List.not_mem_nil, or_false] at hb
    rcases hb with rfl | rfl
    · exact hS _ _ _ _ _ h1
    · exact hS _ _ _ _ _ h2
  · refine collect_mem (fun job _ y hy => ?_) hb x hx
    simp only [Option.bind_eq_bind, Option.bind_eq_some_iff] at hy
    obtain ⟨faces, -, hy⟩ := hy
    refine collect_mem (fun f _ w hw => ?_) hy
    refine collect_mem (fun q _ z hz => ?_) hw
    simp only [Option.bind_eq_bind, Option.bind_eq_some_iff, Option.some.injEq] at hz
    obtain ⟨u, -, a1, h1, rfl⟩ := hz
    intro b hb
    simp only [List.mem_cons, List.not_mem_nil, or_false] at hb
    subst hb
    exact hS _ _ _ _ _ h1
  · refine collect_mem (fun f _ y hy => ?_) hg x hx
    refine collect_mem (fun q _ z hz => ?_) hy
    simp only [Option.bind_eq_bind, Option.bind_eq_some_iff, Option.some.injEq] at hz
    obtain ⟨u, -, v, -, a1, h1, rfl⟩ := hz
    intro b hb
    simp only [List.mem_cons, List.not_mem_nil, or_false] at hb
    subst hb
    exact hS _ _ _ _ _ h1

theorem sizes_get (P : Part Pt K n) {p : Nat} (hp : p < P.count) :
    (sizes P)[p]? = some ((n + 1) * K) := by
  rw [sizes, List.getElem?_replicate, if_pos hp]

theorem index_lt (r : Fin K) (i : Fin (n + 1)) : i.val * K + r.val < (n + 1) * K := by
  have : (i.val + 1) * K ≤ (n + 1) * K := Nat.mul_le_mul_right _ i.2
  rw [Nat.add_mul] at this
  have := r.2
  omega

/-- Accumulating contributions that fit from zero gives, in every entry, the sum of the amounts. -/
theorem assembled {P : Part Pt K n} {ids offs : List Nat}
    (hn : addLocalCellId (List.ofFn P.inter) (sizes P) = some (ids, offs))
    {cs : List (Contribution ℝ)} (hcs : ∀ c ∈ cs, Fits P c) :
    ∃ col, accumulate ⟨List.ofFn P.inter, ids, offs⟩ cs (List.replicate (sizes P).sum 0) = some col ∧
      col.length = (sizes P).sum ∧
      ∀ (p : Fin P.count) (r : Fin K) (i : Fin (n + 1)),
        entry (⟨List.ofFn P.inter, ids, offs⟩, col) p.val r i
          = some ((cs.map (amount p.val (i.val * K + r.val))).sum) := by
  obtain ⟨col, off, h1, h2, hL, ho, h3⟩ := contributions_stay_in_block (List.ofFn P.inter) (sizes P) ids offs
    (by simp [sizes]) hn cs (List.replicate (sizes P).sum 0) (by simp)
    (fun c hc => ⟨_, sizes_get P (hcs c hc).1, (hcs c hc).2⟩)
  refine ⟨col, h1, by rw [h2, List.length_replicate], fun p r i => ?_⟩
  have hlt := index_lt r i
  have hfit := hL.fits p.val _ (sizes_get P p.2)
  simp only [entry, ho p.val (by simpa [sizes] using p.2), Option.bind_eq_bind, Option.bind_some]
  rw [h3 p.val _ (sizes_get P p.2) _ hlt, List.getElem?_replicate, if_pos (by omega)]
  simp

theorem residual_some {S : Scheme Pt K n} {P : Part Pt K n} (hS : S.Local P) {vol : Bool}
    {c : Conditions Pt K} {t : ℝ} {res : Numbering × List ℝ} (h : residual S vol P c t = some res) :
    ∃ cs, contributions S vol P c t = some cs ∧
      ∀ (p : Fin P.count) (r : Fin K) (i : Fin (n + 1)),
        entry res p.val r i = some ((cs.map (amount p.val (i.val * K + r.val))).sum) := by
  simp only [residual, Option.bind_eq_bind, Option.bind_eq_some_iff, Option.some.injEq] at h
  obtain ⟨⟨ids, offs⟩, hn, cs, hc, col, ha, rfl⟩ := h
  obtain ⟨col', h1, -, h2⟩ := assembled hn (contributions_fit hS hc)
  rw [ha, Option.some.injEq] at h1
  subst h1
  exact ⟨cs, hc, h2⟩

/-- The residual exists as soon as all contributions do. -/
theorem residual_total {S : Scheme Pt K n} {P : Part Pt K n} (hS : S.Local P) {vol : Bool}
    {c : Conditions Pt K} {t : ℝ} {cs : List (Contribution ℝ)}
    (hc : contributions S vol P c t = some cs) : ∃ res, residual S vol P c t = some res := by
  obtain ⟨ids, offs, off, hn, -⟩ := blocks_tile_column (List.ofFn P.inter) (sizes P) (by simp [sizes])
  obtain ⟨col, h1, -⟩ := assembled hn (contributions_fit hS hc)
  exact ⟨(⟨List.ofFn P.inter, ids, offs⟩, col),
    by simp only [residual, hn, hc, h1, Option.bind_eq_bind, Option.bind_some]⟩

/-- A column is determined by its entries. -/
theorem column_ext {P : Part Pt K n} {ids offs : List Nat}
    (hn : addLocalCellId (List.ofFn P.inter) (sizes P) = some (ids, offs)) {col col' : List ℝ}
    (hl : col.length = (sizes P).sum) (hl' : col'.length = (sizes P).sum)
    (h : ∀ (p : Fin P.count) (r : Fin K) (i : Fin (n + 1)),
      entry (⟨List.ofFn P.inter, ids, offs⟩, col) p.val r i
        = entry (⟨List.ofFn P.inter, ids, offs⟩, col') p.val r i) : col = col' := by
  obtain ⟨off, hL, ho⟩ := setup (by simp [sizes]) hn
  refine List.ext_getElem? fun x => ?_
  by_cases hx : x < (sizes P).sum
  · obtain ⟨p, s, hs, h1, h2⟩ := hL.cover x hx
    have hp : p < P.count := by
      obtain ⟨hp, -⟩ := List.getElem?_eq_some_iff.1 hs
      simpa [sizes] using hp
    rw [sizes_get P hp, Option.some.injEq] at hs
    subst hs
    have hK : 0 < K := by
      rcases Nat.eq_zero_or_pos K with h0 | h0
      · subst h0; simp at h2; omega
      · exact h0
    have hd : (x - off p) / K < n + 1 := (Nat.div_lt_iff_lt_mul hK).2 (by omega)
    have := h ⟨p, hp⟩ ⟨(x - off p) % K, Nat.mod_lt _ hK⟩ ⟨(x - off p) / K, hd⟩
    have he : (x - off p) / K * K + (x - off p) % K = x - off p := Nat.div_add_mod' _ _
    simp only [entry, ho p (by simpa [sizes] using hp), Option.bind_eq_bind, Option.bind_some, he] at this
    rwa [show off p + (x - off p) = x by omega] at this
  · rw [List.getElem?_eq_none (by omega), List.getElem?_eq_none (by omega)]

/-- Two schemes or sets of conditions whose contributions add the same to every entry have the same
residual. -/
theorem residual_congr {S S' : Scheme Pt K n} {P : Part Pt K n} (hS : S.Local P) (hS' : S'.Local P)
    {vol vol' : Bool} {c c' : Conditions Pt K} {t t' : ℝ} {cs cs' : List (Contribution ℝ)}
    (hc : contributions S vol P c t = some cs) (hc' : contributions S' vol' P c' t' = some cs')
    (h : ∀ (p : Fin P.count) (r : Fin K) (i : Fin (n + 1)),
      (cs.map (amount p.val (i.val * K + r.val))).sum = (cs'.map (amount p.val (i.val * K + r.val))).sum) :
    residual S vol P c t = residual S' vol' P c' t' := by
  obtain ⟨ids, offs, off, hn, -⟩ := blocks_tile_column (List.ofFn P.inter) (sizes P) (by simp [sizes])
  obtain ⟨col, h1, h2, h3⟩ := assembled hn (contributions_fit hS hc)
  obtain ⟨col', h1', h2', h3'⟩ := assembled hn (contributions_fit hS' hc')
  have : col = col' := column_ext hn h2 h2' fun p r i => by rw [h3, h3', h p r i]
  simp only [residual, hn, hc, hc', h1, h1', Option.bind_eq_bind, Option.bind_some, this]

/-! ### Integrals -/

/-- What one contribution adds to the integral. -/
noncomputable def moment (P : Part Pt K n) (m : Fin P.count → Fin (n + 1) → ℝ) (r : Fin K)
    (x : Contribution ℝ) : ℝ := ∑ p : Fin P.count, ∑ i, m p i * amount p.val (i.val * K + r.val) x

theorem integral_eq {P : Part Pt K n} (m : Fin P.count → Fin (n + 1) → ℝ)
    {res : Numbering × List ℝ} {cs : List (Contribution ℝ)}
    (h : ∀ (p : Fin P.count) (r : Fin K) (i : Fin (n + 1)),
      entry res p.val r i = some ((cs.map (amount p.val (i.val * K + r.val))).sum)) (r : Fin K) :
    integral P m res r = (cs.map (moment P m r)).sum := by
  unfold integral coeffAt
  simp only [h, Option.getD_some]
  clear h
  induction cs with
  | nil => simp
  | cons c cs ih =>
    simp only [List.map_cons, List.sum_cons, mul_add, Finset.sum_add_distrib, ih]
    rfl

theorem moment_addCoeff (P : Part Pt K n) (m : Fin P.count → Fin (n + 1) → ℝ) (r : Fin K)
    (p : Fin P.count) (a : Coeff K n) : moment P m r (addCoeff p.val a) = ∑ i, m p i * a r i := by
  unfold moment
  simp only [amount_addCoeff]
  rw [Finset.sum_eq_single p]
  · simp
  · intro p' _ hne
    refine Finset.sum_eq_zero fun i _ => ?_
    rw [if_neg fun h => hne (Fin.ext h.symm), mul_zero]
  · simp

theorem moment_minusCoeff (P : Part Pt K n) (m : Fin P.count → Fin (n + 1) → ℝ) (r : Fin K)
    (p : Fin P.count) (a : Coeff K n) : moment P m r (minusCoeff p.val a) = -∑ i, m p i * a r i := by
  rw [show minusCoeff p.val a = addCoeff p.val fun r c => -a r c from rfl, moment_addCoeff]
  simp

theorem moment_addValue (P : Part Pt K n) (m : Fin P.count → Fin (n + 1) → ℝ) (r : Fin K)
    (p : Fin P.count) (j : Fin (n + 1)) (v : Value K) :
    moment P m r (addValue p.val j.val v) = m p j * v r := by
  unfold moment
  simp only [amount_addValue]
  rw [Finset.sum_eq_single p]
  · simp
  · intro p' _ hne
    refine Finset.sum_eq_zero fun i _ => ?_
    rw [if_neg fun h => hne (Fin.ext h.1.symm), mul_zero]
  · simp

theorem moment_minusValue (P : Part Pt K n) (m : Fin P.count → Fin (n + 1) → ℝ) (r : Fin K)
    (p : Fin P.count) (j : Fin (n + 1)) (v : Value K) :
    moment P m r (minusValue p.val j.val v) = -(m p j * v r) := by
  rw [show minusValue p.val j.val v = addValue p.val j.val fun r => -v r from rfl, moment_addValue]
  ring

/-- A scheme that adds to the integral exactly the flux it is given, and whose traces are `T`. -/
structure Consistent (S : Scheme Pt K n) (P : Part Pt K n) (m : Fin P.count → Fin (n + 1) → ℝ)
    (T : Cell Pt K n → Pt → Value K) : Prop where
  trace : ∀ c q u, S.trace c q = some u → u = T c q.coord
  put : ∀ b (p : Fin P.count) q flux a r, S.put b p.val (P.cells p) q flux = some a →
    moment P m r a = if b then flux r else -flux r

variable {S : Scheme Pt K n} {P : Part Pt K n} {m : Fin P.count → Fin (n + 1) → ℝ}
  {T : Cell Pt K n → Pt → Value K}

theorem local_cancel (hc : Consistent S P m T) {f : LocalFace Pt K P.count} {x : List (Contribution ℝ)}
    (h : onLocalFace S P f = some x) (r : Fin K) : (x.map (moment P m r)).sum = 0 := by
  have := collect_sum (g := moment P m r) (G := fun _ => 0) (fun q _ z hz => ?_) h
  · rw [this]; simp
  · simp only [Option.bind_eq_bind, Option.bind_eq_some_iff, Option.some.injEq] at hz
    obtain ⟨u, -, v, -, a1, h1, a2, h2, rfl⟩ := hz
    have e1 := hc.put _ _ _ _ _ r h1
    have e2 := hc.put _ _ _ _ _ r h2
    simp only [Bool.false_eq_true, if_false, if_true] at e1 e2
    simp [e1, e2]

theorem ghost_moment (hc : Consistent S P m T) {f : GhostFace Pt K n P.count} {x : List (Contribution ℝ)}
    (h : onGhostFace S P f = some x) (r : Fin K) : (x.map (moment P m r)).sum
      = -(f.points.map fun q => q.weight *
          q.riemann.upwind (T (P.cells f.holder) q.coord) (T f.sharer q.coord) r).sum := by
  rw [← sum_map_neg]
  refine collect_sum (fun q _ z hz => ?_) h
  simp only [Option.bind_eq_bind, Option.bind_eq_some_iff, Option.some.injEq] at hz
  obtain ⟨u, h0, v, h0', a1, h1, rfl⟩ := hz
  have e1 := hc.put _ _ _ _ _ r h1
  simp only [Bool.false_eq_true, if_false] at e1
  rw [hc.trace _ _ _ h0, hc.trace _ _ _ h0'] at e1
  simp only [List.map_cons, List.map_nil, List.sum_cons, List.sum_nil, add_zero, e1, weigh]
  ring

theorem boundary_moment (hc : Consistent S P m T) {flux : FacePoint Pt K → Value K → Value K}
    {f : BoundaryFace Pt K P.count} {x : List (Contribution ℝ)}
    (h : onBoundaryFace S P flux f = some x) (r : Fin K) : (x.map (moment P m r)).sum
      = -(f.points.map fun q => q.weight * flux q (T (P.cells f.holder) q.coord) r).sum := by
  rw [← sum_map_neg]
  refine collect_sum (fun q _ z hz => ?_) h
  simp only [Option.bind_eq_bind, Option.bind_eq_some_iff, Option.some.injEq] at hz
  obtain ⟨u, h0, a1, h1, rfl⟩ := hz
  have e1 := hc.put _ _ _ _ _ r h1
  simp only [Bool.false_eq_true, if_false] at e1
  rw [hc.trace _ _ _ h0] at e1
  simp only [List.map_cons, List.map_nil, List.sum_cons, List.sum_nil, add_zero, e1, weigh]
  ring

theorem boundaries_moment (hc : Consistent S P m T) {c : Conditions Pt K} {t : ℝ}
    {x : List (Contribution ℝ)} (h : onBoundaries S P c t = some x) (r : Fin K) :
    (x.map (moment P m r)).sum = -outflow T P c t r := by
  have h1 : (x.map (moment P m r)).sum
      = ((jobs c t).map fun job => -through T P job.1 job.2 r).sum := by
    refine collect_sum (fun job _ z hz => ?_) h
    simp only [Option.bind_eq_bind, Option.bind_eq_some_iff] at hz
    obtain ⟨faces, h1, h2⟩ := hz
    simp only [through, h1]
    rw [← sum_map_neg]
    exact collect_sum (fun f _ y hy => boundary_moment hc hy r) h2
  rw [h1, sum_map_neg]
  simp only [jobs, outflow, List.map_append, List.sum_append, List.map_map, Function.comp_def]
  ring

/-- The balance of one part. -/
theorem part_balance (hS : S.Local P) (hc : Consistent S P m T) {vol : Bool} {c : Conditions Pt K} {t : ℝ}
    {res : Numbering × List ℝ} (h : residual S vol P c t = some res)
    (hv : vol = true → ∀ p : Fin P.count, ∀ v ∈ (P.cells p).volume, ∀ k, ∑ i, m p i * v.grad k i = 0)
    (r : Fin K) :
    integral P m res r = -outflow T P c t r - ((sides T P).map fun s => s.flux r).sum := by
  obtain ⟨cs, h1, h2⟩ := residual_some hS h
  rw [integral_eq m h2]
  simp only [contributions, Option.bind_eq_bind, Option.bind_eq_some_iff, Option.some.injEq] at h1
  obtain ⟨a, ha, b, hb, g, hg, rfl⟩ := h1
  simp only [List.map_append, List.sum_append]
  have e1 : ((if vol then divergences P else []).map (moment P m r)).sum = 0 := by
    refine List.sum_eq_zero fun y hy => ?_
    obtain ⟨x, hx, rfl⟩ := List.mem_map.1 hy
    split at hx
    case isFalse => simp at hx
    rename_i hvol
    simp only [divergences, divergence, List.mem_flatMap, List.mem_map] at hx
    obtain ⟨p, -, v, hv', rfl⟩ := hx
    rw [moment_addCoeff]
    simp only [Finset.mul_sum]
    rw [Finset.sum_comm]
    refine Finset.sum_eq_zero fun k _ => ?_
    have := hv hvol p v hv' k
    calc ∑ i, m p i * (v.flux r k * v.weight * v.grad k i)
        = v.flux r k * v.weight * ∑ i, m p i * v.grad k i := by
          rw [Finset.mul_sum]; exact Finset.sum_congr rfl fun _ _ => by ring
      _ = 0 := by rw [this, mul_zero]
  have e2 : (a.map (moment P m r)).sum = 0 := by
    rw [collect_sum (G := fun _ => 0) (fun f _ x hx => local_cancel hc hx r) ha]
    simp
  have e3 := boundaries_moment hc hb r
  have e4 : (g.map (moment P m r)).sum = -((sides T P).map fun s => s.flux r).sum := by
    rw [← sum_map_neg, collect_sum (fun f _ x hx => ghost_moment hc hx r) hg]
    simp only [sides, List.map_map, Function.comp_def, Side.flux]
  rw [e1, e2, e3, e4]
  ring

theorem mirror_cancel {a b : Side Pt K} (h : Mirror a b) (r : Fin K) : a.flux r + b.flux r = 0 := by
  obtain ⟨l, h1, h2⟩ := h
  have e : b.flux r = -a.flux r := by
    unfold Side.flux
    rw [(h1.map _).sum_eq, ← sum_map_neg]
    clear h1
    generalize a.points = la at h2
    induction h2 with
    | nil => rfl
    | cons h _ ih =>
      simp only [List.map_cons, List.sum_cons, ih]
      obtain ⟨h1, h2, h3, h4, h5⟩ := h
      rw [h1, h2, h3, h4, h5]
      ring
  rw [e]; ring

theorem paired_cancel {l : List (Side Pt K)} (h : Paired l) (r : Fin K) :
    (l.map fun s => s.flux r).sum = 0 := by
  obtain ⟨pairs, h1, h2⟩ := h
  rw [(h1.map _).sum_eq]
  clear h1
  induction pairs with
  | nil => rfl
  | cons ab rest ih =>
    simp only [List.flatMap_cons, List.cons_append, List.nil_append, List.map_cons, List.sum_cons]
    rw [ih fun x hx => h2 x (List.mem_cons_of_mem _ hx)]
    have := mirror_cancel (h2 ab (by simp)) r
    linarith

end MiniCFD.Residual
