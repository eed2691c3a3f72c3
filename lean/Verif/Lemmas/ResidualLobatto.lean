import Verif.Lemmas.Residual

/-! # Facts on the Lobatto scheme: division by the weights, and agreement with the general scheme -/

namespace MiniCFD.Residual

open MiniCFD.Column MiniCFD.Projection MiniCFD.Spec.Column MiniCFD.Spec.Residual

variable {Pt : Type} {K n : Nat}

/-! ### Division by the weights -/

theorem scaleNodes_spec (K : Nat) (ws : List ℝ) (col : List ℝ) (off : Nat)
    (h : off + ws.length * K ≤ col.length) :
    ∃ col', scaleNodes K col off ws = some col' ∧ col'.length = col.length ∧
      (∀ j, j < off ∨ off + ws.length * K ≤ j → col'[j]? = col[j]?) ∧
      ∀ (i r : Nat) (w : ℝ), ws[i]? = some w → r < K →
        col'[off + (i * K + r)]? = (col[off + (i * K + r)]?).map (· * (1 / w)) := by
  induction ws generalizing col off with
  | nil => exact ⟨col, rfl, rfl, fun _ _ => rfl, fun i r w hw _ => by simp at hw⟩
  | cons w ws ih =>
    rw [List.length_cons, Nat.add_mul, Nat.one_mul] at h
    have hlen : (((col.drop off).take K).map (· * (1 / w))).length = K := by
      simp only [List.length_map, List.length_take, List.length_drop]; omega
    have h1 : readAt col off K = some ((col.drop off).take K) := by
      rw [readAt, if_pos (by omega)]
    have h2 : writeAt col off (((col.drop off).take K).map (· * (1 / w)))
        = some (col.take off ++ ((col.drop off).take K).map (· * (1 / w)) ++ col.drop (off + K)) := by
      rw [writeAt, hlen, if_pos (by omega)]
    set col1 := col.take off ++ ((col.drop off).take K).map (· * (1 / w)) ++ col.drop (off + K) with hcol1
    have hl1 : col1.length = col.length := by
      rw [hcol1, List.length_append, List.length_append, hlen, List.length_take, List.length_drop]
      omega
    have hlt : (col.take off).length = off := by rw [List.length_take]; omega
    have hl2 : (col.take off ++ ((col.drop off).take K).map (· * (1 / w))).length = off + K := by
      rw [List.length_append, hlen, hlt]
    have hout : ∀ j, j < off ∨ off + K ≤ j → col1[j]? = col[j]? := by
      intro j hj
      rcases hj with hj | hj
      · rw [hcol1, List.append_assoc, List.getElem?_append_left (by omega), List.getElem?_take, if_pos hj]
      · rw [hcol1, List.getElem?_append_right (by omega), hl2, List.getElem?_drop]
        congr 1; omega
    have hin : ∀ r, r < K → col1[off + r]? = (col[off + r]?).map (· * (1 / w)) := by
      intro r hr
      rw [hcol1, List.getElem?_append_left (by omega), List.getElem?_append_right (by omega), hlt,
        List.getElem?_map, List.getElem?_take, if_pos (by omega), List.getElem?_drop]
      rw [show off + (off + r - off) = off + r by omega]
    obtain ⟨col', e1, e2, e3, e4⟩ := ih col1 (off + K) (by omega)
    refine ⟨col', ?_, by omega, ?_, ?_⟩
    · simp only [scaleNodes, h1, h2, Option.bind_eq_bind, Option.bind_some]
      exact e1
    · intro j hj
      rw [List.length_cons, Nat.add_mul, Nat.one_mul] at hj
      rw [e3 j (by omega), hout j (by omega)]
    · intro i r w' hw hr
      cases i with
      | zero =>
        simp only [List.getElem?_cons_zero, Option.some.injEq] at hw
        subst hw
        rw [Nat.zero_mul, Nat.zero_add, e3 _ (by omega), hin r hr]
      | succ i =>
        simp only [List.getElem?_cons_succ] at hw
        have := e4 i r w' hw hr
        rw [Nat.add_mul, Nat.one_mul]
        rw [show off + K + (i * K + r) = off + (i * K + K + r) by omega] at this
        rw [this, hout _ (by omega)]

theorem scaleAll_spec {P : Part Pt K n} {num : Numbering} {off : Nat → Nat}
    (hL : Layout (sizes P) off (sizes P).sum) (ho : ∀ p, p < P.count → num.offset p = some (off p))
    (l : List (Nat × List ℝ)) (hl : ∀ x ∈ l, x.1 < P.count ∧ x.2.length = n + 1)
    (hd : (l.map Prod.fst).Nodup) (col : List ℝ) (hc : col.length = (sizes P).sum) :
    ∃ col', scaleAll K num col l = some col' ∧ col'.length = col.length ∧
      (∀ p, p < P.count → p ∉ l.map Prod.fst → ∀ j, j < (n + 1) * K → col'[off p + j]? = col[off p + j]?) ∧
      ∀ x ∈ l, ∀ (i r : Nat) (w : ℝ), x.2[i]? = some w → r < K →
        col'[off x.1 + (i * K + r)]? = (col[off x.1 + (i * K + r)]?).map (· * (1 / w)) := by
  induction l generalizing col with
  | nil => exact ⟨col, rfl, rfl, fun _ _ _ _ _ => rfl, fun x hx => by simp at hx⟩
  | cons x l ih =>
    obtain ⟨p, ws⟩ := x
    obtain ⟨hp, hw⟩ := hl (p, ws) (by simp)
    simp only at hp hw
    have hfit := hL.fits p _ (sizes_get P hp)
    obtain ⟨col1, e1, e2, e3, e4⟩ := scaleNodes_spec K ws col (off p) (by rw [hw]; omega)
    simp only [List.map_cons, List.nodup_cons] at hd
    obtain ⟨col', f1, f2, f3, f4⟩ := ih (fun y hy => hl y (List.mem_cons_of_mem _ hy)) hd.2 col1 (by omega)
    refine ⟨col', ?_, by omega, ?_, ?_⟩
    · simp only [scaleAll, ho p hp, e1, Option.bind_eq_bind, Option.bind_some]
      exact f1
    · intro p' hp' hn j hj
      simp only [List.map_cons, List.mem_cons, not_or] at hn
      rw [f3 p' hp' hn.2 j hj, e3]
      rw [hw]
      rcases hL.disjoint p' p _ _ (sizes_get P hp') (sizes_get P hp) hn.1 with h | h
      · left; omega
      · right; omega
    · intro y hy i r w hyw hr
      rcases List.mem_cons.1 hy with rfl | hy
      · simp only at hyw ⊢
        have hi : i < n + 1 := by
          obtain ⟨hi, -⟩ := List.getElem?_eq_some_iff.1 hyw
          omega
        rw [f3 p hp hd.1 _ (index_lt ⟨r, hr⟩ ⟨i, hi⟩), e4 i r w hyw hr]
      · have hne : y.1 ≠ p := fun h => hd.1 (h ▸ List.mem_map_of_mem hy)
        obtain ⟨hyp, hyl⟩ := hl y (List.mem_cons_of_mem _ hy)
        have hi : i < n + 1 := by
          obtain ⟨hi, -⟩ := List.getElem?_eq_some_iff.1 hyw
          omega
        have hlt := index_lt (K := K) ⟨r, hr⟩ (⟨i, hi⟩ : Fin (n + 1))
        simp only at hlt
        rw [f4 y hy i r w hyw hr, e3]
        rw [hw]
        rcases hL.disjoint y.1 p _ _ (sizes_get P hyp) (sizes_get P hp) hne with h | h
        · left; omega
        · right; omega

/-- Weight of node `i` of cell `p`. -/
noncomputable def nodeWeight (P : Part Pt K n) (p : Fin P.count) (i : Fin (n + 1)) : ℝ :=
  (((P.cells p).volume[i.val]?).map (·.weight)).getD 1

/-- Every entry of the residual of `Lobatto` is that of the assembled column over the weight of the node. -/
theorem lobatto_entry {near : Pt → Pt → Bool} {P : Part Pt K n} {c : Conditions Pt K} {t : ℝ}
    (hv : ∀ p, (P.cells p).volume.length = n + 1) {res : Numbering × List ℝ}
    (h : lobattoResidual near P c t = some res) :
    ∃ raw, residual (lobatto near) true P c t = some raw ∧
      ∀ (p : Fin P.count) (r : Fin K) (i : Fin (n + 1)), ∃ x, entry raw p.val r i = some x ∧
        entry res p.val r i = some (x * (1 / nodeWeight P p i)) := by
  simp only [lobattoResidual, Option.bind_eq_bind, Option.bind_eq_some_iff, Option.some.injEq] at h
  obtain ⟨⟨num, col⟩, h1, col', h2, rfl⟩ := h
  refine ⟨_, h1, fun p r i => ?_⟩
  obtain ⟨cs, -, h3⟩ := residual_some (lobatto_local near P) h1
  refine ⟨_, h3 p r i, ?_⟩
  have h0 := h1
  simp only [residual, Option.bind_eq_bind, Option.bind_eq_some_iff, Option.some.injEq,
    Prod.mk.injEq] at h1
  obtain ⟨⟨ids, offs⟩, hn, cs', hcs', col0, ha, rfl, rfl⟩ := h1
  obtain ⟨off, hL, ho⟩ := setup (by simp [sizes]) hn
  have ho' : ∀ p, p < P.count → Numbering.offset ⟨List.ofFn P.inter, ids, offs⟩ p = some (off p) :=
    fun p hp => ho p (by simpa [sizes] using hp)
  obtain ⟨col1, e1, e2, e3⟩ := assembled hn (contributions_fit (lobatto_local near P) hcs')
  rw [ha, Option.some.injEq] at e1
  subst e1
  obtain ⟨col2, f1, -, -, f2⟩ := scaleAll_spec hL ho'
    ((List.finRange P.count).map fun p => (p.val, (P.cells p).volume.map (·.weight)))
    (by
      intro x hx
      obtain ⟨q, -, rfl⟩ := List.mem_map.1 hx
      exact ⟨q.2, by simp [hv q]⟩)
    (by
      rw [List.map_map]
      refine List.Nodup.map ?_ (List.nodup_finRange _)
      intro a b hab
      exact Fin.ext hab) col0 e2
  rw [h2, Option.some.injEq] at f1
  subst f1
  have hi : i.val < (P.cells p).volume.length := by rw [hv p]; exact i.2
  have := f2 _ (List.mem_map_of_mem (List.mem_finRange p)) i.val r.val ((P.cells p).volume[i.val].weight)
    (by simp [hi]) r.2
  simp only at this
  have h4 := h3 p r i
  simp only [entry, ho' p.val p.2, Option.bind_eq_bind, Option.bind_some] at h4 ⊢
  rw [this, h4]
  simp [nodeWeight, hi]

/-! ### Agreement of schemes -/

/-- The same additions to every entry. -/
def SameList (x y : List (Contribution ℝ)) (P : Part Pt K n) : Prop :=
  ∀ (p : Fin P.count) (r : Fin K) (i : Fin (n + 1)),
    (x.map (amount p.val (i.val * K + r.val))).sum = (y.map (amount p.val (i.val * K + r.val))).sum

/-- Both fail, or both make the same additions. -/
def Same (P : Part Pt K n) (x y : Option (List (Contribution ℝ))) : Prop :=
  (x = none ∧ y = none) ∨ ∃ a b, x = some a ∧ y = some b ∧ SameList a b P

theorem Same.refl (P : Part Pt K n) (x : Option (List (Contribution ℝ))) : Same P x x := by
  cases x with
  | none => exact .inl ⟨rfl, rfl⟩
  | some a => exact .inr ⟨a, a, rfl, rfl, fun _ _ _ => rfl⟩

theorem SameList.append {P : Part Pt K n} {a b a' b' : List (Contribution ℝ)} (h : SameList a a' P)
    (h' : SameList b b' P) : SameList (a ++ b) (a' ++ b') P := fun p r i => by
  simp only [List.map_append, List.sum_append, h p r i, h' p r i]

theorem collect_same {α : Type*} {P : Part Pt K n} {f g : α → Option (List (Contribution ℝ))} {l : List α}
    (h : ∀ a ∈ l, Same P (f a) (g a)) : Same P (collect f l) (collect g l) := by
  induction l with
  | nil => exact Same.refl P _
  | cons a as ih =>
    have ih := ih fun b hb => h b (List.mem_cons_of_mem _ hb)
    rcases h a (by simp) with ⟨h1, h2⟩ | ⟨x, y, h1, h2, h3⟩
    · exact .inl ⟨by simp [collect, h1], by simp [collect, h2]⟩
    · rcases ih with ⟨h4, h5⟩ | ⟨x', y', h4, h5, h6⟩
      · exact .inl ⟨by simp [collect, h1, h4], by simp [collect, h2, h5]⟩
      · exact .inr ⟨x ++ x', y ++ y', by simp [collect, h1, h4], by simp [collect, h2, h5], h3.append h6⟩

/-- Same contributions, same residual. -/
theorem residual_same {S S' : Scheme Pt K n} {P : Part Pt K n} (hS : S.Local P) (hS' : S'.Local P)
    {vol vol' : Bool} {c c' : Conditions Pt K} {t t' : ℝ}
    (h : Same P (contributions S vol P c t) (contributions S' vol' P c' t')) :
    residual S vol P c t = residual S' vol' P c' t' := by
  rcases h with ⟨h1, h2⟩ | ⟨a, b, h1, h2, h3⟩
  · have : ∀ {S : Scheme Pt K n} {vol c t}, contributions S vol P c t = none → residual S vol P c t = none := by
      intro S vol c t h
      simp only [residual, h, Option.bind_eq_bind]
      cases addLocalCellId (List.ofFn P.inter) (sizes P) <;> rfl
    rw [this h1, this h2]
  · exact residual_congr hS hS' h1 h2 h3

/-- Two schemes agree on a cell at a face point. -/
structure AgreeAt (S S' : Scheme Pt K n) (P : Part Pt K n) (p : Fin P.count) (q : FacePoint Pt K) :
    Prop where
  trace : S.trace (P.cells p) q = S'.trace (P.cells p) q
  put : ∀ b flux, ∃ a a', S.put b p.val (P.cells p) q flux = some a ∧
    S'.put b p.val (P.cells p) q flux = some a' ∧ SameList [a] [a'] P

/-- Two schemes agree at all points of all faces of a part. -/
structure Agree (S S' : Scheme Pt K n) (P : Part Pt K n) : Prop where
  holder : ∀ f ∈ P.localFaces, ∀ q ∈ f.points, AgreeAt S S' P f.holder q
  sharer : ∀ f ∈ P.localFaces, ∀ q ∈ f.points, AgreeAt S S' P f.sharer q
  ghost : ∀ f ∈ P.ghostFaces, ∀ q ∈ f.points, AgreeAt S S' P f.holder q ∧
    S.trace f.sharer q = S'.trace f.sharer q
  boundary : ∀ name faces, P.boundary name = some faces → ∀ f ∈ faces, ∀ q ∈ f.points,
    AgreeAt S S' P f.holder q

theorem agree_contributions {S S' : Scheme Pt K n} {P : Part Pt K n} (h : Agree S S' P) (vol : Bool)
    (c : Conditions Pt K) (t : ℝ) :
    Same P (contributions S vol P c t) (contributions S' vol P c t) := by
  have h1 : Same P (collect (onLocalFace S P) P.localFaces) (collect (onLocalFace S' P) P.localFaces) := by
    refine collect_same fun f hf => collect_same fun q hq => ?_
    have ha := h.holder f hf q hq
    have hb := h.sharer f hf q hq
    simp only [ha.trace, hb.trace]
    cases hu : S'.trace (P.cells f.holder) q with
    | none => exact .inl ⟨rfl, rfl⟩
    | some u =>
      cases hv : S'.trace (P.cells f.sharer) q with
      | none => exact .inl ⟨rfl, rfl⟩
      | some v =>
        obtain ⟨a, a', e1, e2, e3⟩ := ha.put false (weigh q.weight (q.riemann.upwind u v))
        obtain ⟨b, b', f1, f2, f3⟩ := hb.put true (weigh q.weight (q.riemann.upwind u v))
        exact .inr ⟨[a, b], [a', b'], by simp [e1, f1], by simp [e2, f2],
          SameList.append (a := [a]) (a' := [a']) e3 f3⟩
  have h2 : Same P (onBoundaries S P c t) (onBoundaries S' P c t) := by
    refine collect_same fun job _ => ?_
    cases hn : P.boundary job.1 with
    | none => exact .inl ⟨rfl, rfl⟩
    | some faces =>
      refine collect_same fun f hf => collect_same fun q hq => ?_
      have ha := h.boundary job.1 faces hn f hf q hq
      simp only [ha.trace]
      cases hu : S'.trace (P.cells f.holder) q with
      | none => exact .inl ⟨rfl, rfl⟩
      | some u =>
        obtain ⟨a, a', e1, e2, e3⟩ := ha.put false (weigh q.weight (job.2 q u))
        exact .inr ⟨[a], [a'], by simp [e1], by simp [e2], e3⟩
  have h3 : Same P (collect (onGhostFace S P) P.ghostFaces) (collect (onGhostFace S' P) P.ghostFaces) := by
    refine collect_same fun f hf => collect_same fun q hq => ?_
    obtain ⟨ha, hb⟩ := h.ghost f hf q hq
    simp only [ha.trace, hb]
    cases hu : S'.trace (P.cells f.holder) q with
    | none => exact .inl ⟨rfl, rfl⟩
    | some u =>
      cases hv : S'.trace f.sharer q with
      | none => exact .inl ⟨rfl, rfl⟩
      | some v =>
        obtain ⟨a, a', e1, e2, e3⟩ := ha.put false (weigh q.weight (q.riemann.upwind u v))
        exact .inr ⟨[a], [a'], by simp [e1], by simp [e2], e3⟩
  rcases h1 with ⟨e1, e2⟩ | ⟨a, a', e1, e2, e3⟩
  · exact .inl ⟨by simp [contributions, e1], by simp [contributions, e2]⟩
  rcases h2 with ⟨f1, f2⟩ | ⟨b, b', f1, f2, f3⟩
  · exact .inl ⟨by simp [contributions, e1, f1], by simp [contributions, e2, f2]⟩
  rcases h3 with ⟨g1, g2⟩ | ⟨d, d', g1, g2, g3⟩
  · exact .inl ⟨by simp [contributions, e1, f1, g1], by simp [contributions, e2, f2, g2]⟩
  refine .inr ⟨(if vol then divergences P else []) ++ a ++ b ++ d,
    (if vol then divergences P else []) ++ a' ++ b' ++ d',
    by simp only [contributions, e1, f1, g1, Option.bind_eq_bind, Option.bind_some],
    by simp only [contributions, e2, f2, g2, Option.bind_eq_bind, Option.bind_some], ?_⟩
  exact SameList.append (SameList.append (SameList.append (fun _ _ _ => rfl) e3) f3) g3

end MiniCFD.Residual
