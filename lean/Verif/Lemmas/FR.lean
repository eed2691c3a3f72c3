import Verif.Lemmas.FRLine
import Verif.Lemmas.ResidualLobatto

/-! # Facts on the flux reconstruction residual -/

namespace MiniCFD.FR

open MiniCFD.Column MiniCFD.Projection MiniCFD.Spec.Column MiniCFD.Spec.FR
open MiniCFD.Residual (minusValue collect)

variable {D : Type} {K N : Nat}

/-! ### Assembly -/

theorem flat_lt (q : Node N) : flat q < cellQ N := Lagrange.index3_lt q.1.2 q.2.1.2 q.2.2.2

theorem flat_injective : Function.Injective (flat (N := N)) := by
  intro q q' h
  obtain ⟨h1, h2, h3⟩ := Lagrange.index_injective q.2.1.2 q.2.2.2 q'.2.1.2 q'.2.2.2 h
  exact Prod.ext (Fin.ext h1) (Prod.ext (Fin.ext h2) (Fin.ext h3))

theorem cellQ_pos (N : Nat) : ∃ n, cellQ N = n + 1 :=
  ⟨cellQ N - 1, by
    have : 0 < cellQ N := Nat.mul_pos (Nat.mul_pos (Nat.succ_pos _) (Nat.succ_pos _)) (Nat.succ_pos _)
    omega⟩

theorem amount_minusValue (p p' : Nat) (q' : Node N) (v : Value K) (r : Fin K) (q : Node N) :
    amount p' (flat q * K + r.val) (minusValue p (flat q') v) = if p = p' ∧ q' = q then -v r else 0 := by
  obtain ⟨n, hn⟩ := cellQ_pos N
  have h := Residual.amount_minusValue (n := n) p p' ⟨flat q', hn ▸ flat_lt q'⟩ v r ⟨flat q, hn ▸ flat_lt q⟩
  simp only at h
  rw [h]
  by_cases e : q' = q
  · subst e; simp
  · rw [if_neg fun h => e (flat_injective (by simpa using congrArg Fin.val h.2)), if_neg fun h => e h.2]

/-- A contribution that stays in the block of its cell. -/
def Fits (P : Part D K N) (c : Contribution ℝ) : Prop :=
  c.cell < P.count ∧ c.shift + c.data.length ≤ cellQ N * K

theorem fits_minusValue (P : Part D K N) (p : Fin P.count) (q : Node N) (v : Value K) :
    Fits P (minusValue p.val (flat q) v) := by
  refine ⟨p.2, ?_⟩
  simp only [minusValue, List.length_ofFn]
  have := Nat.mul_le_mul_left K (show flat q + 1 ≤ cellQ N from flat_lt q)
  rw [Nat.mul_comm (cellQ N)]
  rw [Nat.mul_add] at this
  omega

theorem correct_fit (P : Part D K N) (p : Fin P.count) (h : Cache N) (f : Value K) :
    ∀ c ∈ correct p.val h f, Fits P c := by
  intro c hc
  obtain ⟨gq, -, rfl⟩ := List.mem_map.1 hc
  exact fits_minusValue P p _ _

theorem contributions_fit {x : Fin (N + 1) → ℝ} {ph : Physics D K} {S : Finder D K N} {P : Part D K N}
    {c : Residual.Conditions Vec K} {t : ℝ} {cs : List (Contribution ℝ)}
    (h : contributions x ph S P c t = some cs) : ∀ y ∈ cs, Fits P y := by
  simp only [contributions, Option.bind_eq_bind, Option.bind_eq_some_iff, Option.some.injEq] at h
  obtain ⟨a, ha, b, hb, g, hg, rfl⟩ := h
  intro y hy
  simp only [List.mem_append] at hy
  rcases hy with ((hy | hy) | hy) | hy
  · simp only [divergences, divergence, List.mem_flatMap, List.mem_map] at hy
    obtain ⟨p, -, q, -, rfl⟩ := hy
    exact fits_minusValue P p _ _
  · refine Residual.collect_mem (fun f _ z hz => ?_) ha y hy
    refine Residual.collect_mem (fun q _ z hz => ?_) hz
    simp only [Option.bind_eq_bind, Option.bind_eq_some_iff, Option.some.injEq] at hz
    obtain ⟨h, -, s, -, rfl⟩ := hz
    intro b hb
    rcases List.mem_append.1 hb with hb | hb
    · exact correct_fit P _ _ _ _ hb
    · exact correct_fit P _ _ _ _ hb
  · refine Residual.collect_mem (fun job _ z hz => ?_) hb y hy
    simp only [Option.bind_eq_bind, Option.bind_eq_some_iff] at hz
    obtain ⟨faces, -, hz⟩ := hz
    refine Residual.collect_mem (fun f _ z hz => ?_) hz
    refine Residual.collect_mem (fun q _ z hz => ?_) hz
    simp only [Option.bind_eq_bind, Option.bind_eq_some_iff, Option.some.injEq] at hz
    obtain ⟨h, -, rfl⟩ := hz
    exact correct_fit P _ _ _
  · refine Residual.collect_mem (fun f _ z hz => ?_) hg y hy
    refine Residual.collect_mem (fun q _ z hz => ?_) hz
    simp only [Option.bind_eq_bind, Option.bind_eq_some_iff, Option.some.injEq] at hz
    obtain ⟨h, -, s, -, rfl⟩ := hz
    exact correct_fit P _ _ _

theorem sizes_get (P : Part D K N) {p : Nat} (hp : p < P.count) : (sizes P)[p]? = some (cellQ N * K) := by
  rw [sizes, List.getElem?_replicate, if_pos hp]

theorem index_lt (r : Fin K) (q : Node N) : flat q * K + r.val < cellQ N * K := by
  have : (flat q + 1) * K ≤ cellQ N * K := Nat.mul_le_mul_right _ (flat_lt q)
  rw [Nat.add_mul] at this
  have := r.2
  omega

theorem assembled {P : Part D K N} {ids offs : List Nat}
    (hn : addLocalCellId (List.ofFn P.inter) (sizes P) = some (ids, offs))
    {cs : List (Contribution ℝ)} (hcs : ∀ c ∈ cs, Fits P c) :
    ∃ col, accumulate ⟨List.ofFn P.inter, ids, offs⟩ cs (List.replicate (sizes P).sum 0) = some col ∧
      col.length = (sizes P).sum ∧
      ∀ (p : Fin P.count) (r : Fin K) (q : Node N),
        entry (⟨List.ofFn P.inter, ids, offs⟩, col) p.val r q
          = some ((cs.map (amount p.val (flat q * K + r.val))).sum) := by
  obtain ⟨col, off, h1, h2, hL, ho, h3⟩ := contributions_stay_in_block (List.ofFn P.inter) (sizes P) ids offs
    (by simp [sizes]) hn cs (List.replicate (sizes P).sum 0) (by simp)
    (fun c hc => ⟨_, sizes_get P (hcs c hc).1, (hcs c hc).2⟩)
  refine ⟨col, h1, by rw [h2, List.length_replicate], fun p r q => ?_⟩
  have hlt := index_lt r q
  have hfit := hL.fits p.val _ (sizes_get P p.2)
  simp only [entry, ho p.val (by simpa [sizes] using p.2), Option.bind_eq_bind, Option.bind_some]
  rw [h3 p.val _ (sizes_get P p.2) _ hlt, List.getElem?_replicate, if_pos (by omega)]
  simp

theorem residual_some {x : Fin (N + 1) → ℝ} {ph : Physics D K} {S : Finder D K N} {P : Part D K N}
    {c : Residual.Conditions Vec K} {t : ℝ} {res : Numbering × List ℝ}
    (h : residual x ph S P c t = some res) :
    ∃ cs, contributions x ph S P c t = some cs ∧
      ∀ (p : Fin P.count) (r : Fin K) (q : Node N),
        entry res p.val r q = some ((cs.map (amount p.val (flat q * K + r.val))).sum) := by
  simp only [residual, Option.bind_eq_bind, Option.bind_eq_some_iff, Option.some.injEq] at h
  obtain ⟨⟨ids, offs⟩, hn, cs, hc, col, ha, rfl⟩ := h
  obtain ⟨col', h1, -, h2⟩ := assembled hn (contributions_fit hc)
  rw [ha, Option.some.injEq] at h1
  subst h1
  exact ⟨cs, hc, h2⟩

theorem residual_total {x : Fin (N + 1) → ℝ} {ph : Physics D K} {S : Finder D K N} {P : Part D K N}
    {c : Residual.Conditions Vec K} {t : ℝ} {cs : List (Contribution ℝ)}
    (hc : contributions x ph S P c t = some cs) : ∃ res, residual x ph S P c t = some res := by
  obtain ⟨ids, offs, off, hn, -⟩ := blocks_tile_column (List.ofFn P.inter) (sizes P) (by simp [sizes])
  obtain ⟨col, h1, -⟩ := assembled hn (contributions_fit hc)
  exact ⟨(⟨List.ofFn P.inter, ids, offs⟩, col),
    by simp only [residual, hn, hc, h1, Option.bind_eq_bind, Option.bind_some]⟩

/-- Contributions that add the same to every entry accumulate to the same column. -/
theorem residual_congr {x : Fin (N + 1) → ℝ} {ph : Physics D K} {S S' : Finder D K N} {P : Part D K N}
    {c : Residual.Conditions Vec K} {t : ℝ} {cs cs' : List (Contribution ℝ)}
    (hc : contributions x ph S P c t = some cs) (hc' : contributions x ph S' P c t = some cs')
    (h : ∀ (p : Fin P.count) (r : Fin K) (q : Node N),
      (cs.map (amount p.val (flat q * K + r.val))).sum = (cs'.map (amount p.val (flat q * K + r.val))).sum) :
    residual x ph S P c t = residual x ph S' P c t := by
  obtain ⟨ids, offs, off, hn, -⟩ := blocks_tile_column (List.ofFn P.inter) (sizes P) (by simp [sizes])
  obtain ⟨col, h1, h2, h3⟩ := assembled hn (contributions_fit hc)
  obtain ⟨col', h1', h2', h3'⟩ := assembled hn (contributions_fit hc')
  have he : col = col' := by
    obtain ⟨off, hL, ho⟩ := setup (by simp [sizes]) hn
    refine List.ext_getElem? fun y => ?_
    by_cases hy : y < (sizes P).sum
    · obtain ⟨p, s, hs, g1, g2⟩ := hL.cover y hy
      have hp : p < P.count := by
        obtain ⟨hp, -⟩ := List.getElem?_eq_some_iff.1 hs
        simpa [sizes] using hp
      rw [sizes_get P hp, Option.some.injEq] at hs
      subst hs
      have hK : 0 < K := by
        rcases Nat.eq_zero_or_pos K with h0 | h0
        · subst h0; simp at g2; omega
        · exact h0
      have hd : (y - off p) / K < cellQ N := (Nat.div_lt_iff_lt_mul hK).2 (by omega)
      obtain ⟨i, hi, j, hj, k, hk, -, hm⟩ := (Lagrange.index_bijective (N + 1) (N + 1) (N + 1)).2 _ hd
      have e := h3 ⟨p, hp⟩ ⟨(y - off p) % K, Nat.mod_lt _ hK⟩ (⟨i, hi⟩, ⟨j, hj⟩, ⟨k, hk⟩)
      rw [h, ← h3'] at e
      have hf : flat (N := N) (⟨i, hi⟩, ⟨j, hj⟩, ⟨k, hk⟩) = (y - off p) / K := hm
      have he : (y - off p) / K * K + (y - off p) % K = y - off p := Nat.div_add_mod' _ _
      simp only [entry, ho p (by simpa [sizes] using hp), Option.bind_eq_bind, Option.bind_some, hf, he] at e
      rwa [show off p + (y - off p) = y by omega] at e
    · rw [List.getElem?_eq_none (by omega), List.getElem?_eq_none (by omega)]
  simp only [residual, hn, hc, hc', h1, h1', Option.bind_eq_bind, Option.bind_some, he]

/-! ### Integrals -/

/-- What one contribution adds to the integral. -/
noncomputable def moment (P : Part D K N) (w : Fin (N + 1) → ℝ) (r : Fin K) (y : Contribution ℝ) : ℝ :=
  ∑ p : Fin P.count, ∑ q : Node N, mass w q * amount p.val (flat q * K + r.val) y

theorem integral_eq {P : Part D K N} (w : Fin (N + 1) → ℝ) {res : Numbering × List ℝ}
    {cs : List (Contribution ℝ)}
    (h : ∀ (p : Fin P.count) (r : Fin K) (q : Node N),
      entry res p.val r q = some ((cs.map (amount p.val (flat q * K + r.val))).sum)) (r : Fin K) :
    integral w P res r = (cs.map (moment P w r)).sum := by
  unfold integral entryAt
  simp only [h, Option.getD_some]
  clear h
  induction cs with
  | nil => simp
  | cons c cs ih =>
    simp only [List.map_cons, List.sum_cons, mul_add, Finset.sum_add_distrib, ih]
    rfl

theorem moment_minusValue (P : Part D K N) (w : Fin (N + 1) → ℝ) (r : Fin K) (p : Fin P.count) (q : Node N)
    (v : Value K) : moment P w r (minusValue p.val (flat q) v) = -(mass w q * v r) := by
  unfold moment
  simp only [amount_minusValue]
  rw [Finset.sum_eq_single p]
  · rw [Finset.sum_eq_single q]
    · simp
    · intro q' _ hne
      rw [if_neg fun h => hne h.2.symm, mul_zero]
    · simp
  · intro p' _ hne
    refine Finset.sum_eq_zero fun i _ => ?_
    rw [if_neg fun h => hne (Fin.ext h.1.symm), mul_zero]
  · simp

theorem moment_correct (P : Part D K N) (w : Fin (N + 1) → ℝ) (r : Fin K) (p : Fin P.count) (h : Cache N)
    (f : Value K) : ((correct p.val h f).map (moment P w r)).sum
      = -(f r * (h.line.map fun gq => mass w gq.2 * gq.1).sum) := by
  unfold correct
  rw [List.map_map]
  induction h.line with
  | nil => simp
  | cons a l ih =>
    simp only [List.map_cons, List.sum_cons, Function.comp_def, moment_minusValue] at ih ⊢
    rw [ih]; ring

/-! ### Sides -/

/-- The sides in the numbering of the code. -/
def sideOf : Fin 6 → Side := ![(2, false), (1, false), (0, true), (1, true), (0, false), (2, true)]

theorem sideOf_injective : Function.Injective sideOf := by decide

theorem sideOf_surjective : Function.Surjective sideOf := by decide

theorem sideCenter_eq (k : Fin 6) : sideCenter k = sideMid (sideOf k) := by
  funext d
  fin_cases k <;> fin_cases d <;> simp [sideCenter, sideMid, sideOf, sign]

theorem axis_eq (k : Fin 6) : axis k = (sideOf k).1 := by revert k; decide

theorem right_eq (k : Fin 6) : right k = (sideOf k).2 := by revert k; decide

/-- The end of a line. -/
def stop (b : Bool) : Fin (N + 1) := if b then Fin.last N else 0

theorem stop_value {x w : Fin (N + 1) → ℝ} (h : LineRule x w) (s : Side) : x (stop s.2) = sign s := by
  unfold stop sign
  split
  · exact h.last
  · exact h.first

theorem lineNode_at (k : Fin 6) (a b l : Fin (N + 1)) : at_ (lineNode k a b l) (sideOf k).1 = l := by
  fin_cases k <;> rfl

theorem exists_lineNode (k : Fin 6) (q : Node N) :
    ∃ a b, q = lineNode k a b (at_ q (sideOf k).1) := by
  obtain ⟨i, j, l⟩ := q
  fin_cases k
  · exact ⟨i, j, rfl⟩
  · exact ⟨i, l, rfl⟩
  · exact ⟨j, l, rfl⟩
  · exact ⟨i, l, rfl⟩
  · exact ⟨j, l, rfl⟩
  · exact ⟨i, j, rfl⟩

theorem lineNode_injective (k : Fin 6) {a b a' b' l : Fin (N + 1)} (h : lineNode k a b l = lineNode k a' b' l) :
    (a, b) = (a', b') := by
  fin_cases k <;> simp only [lineNode, Prod.mk.injEq] at h ⊢ <;> tauto

theorem sidePoint_eq {x w : Fin (N + 1) → ℝ} (h : LineRule x w) (k : Fin 6) (a b : Fin (N + 1)) :
    sidePoint x k a b = loc x (lineNode k a b (stop (sideOf k).2)) := by
  have h1 := h.first
  have h2 := h.last
  funext d
  fin_cases k <;> fin_cases d <;>
    simp [sidePoint, loc, at_, lineNode, sideOf, stop, h1, h2]

theorem mass_lineNode (w : Fin (N + 1) → ℝ) (k : Fin 6) (a b l l' : Fin (N + 1)) :
    mass w (lineNode k a b l) = w l * sideMass w (sideOf k).1 (lineNode k a b l') := by
  fin_cases k <;> simp [mass, lineNode, sideMass, sideOf] <;> ring

theorem mem_sideNodes (s : Side) (q : Node N) : q ∈ sideNodes s ↔ at_ q s.1 = stop s.2 := by
  simp [sideNodes, stop]

/-! ### Searches -/

theorem near_iff (ε : ℝ) (a b : Vec) : near ε a b = true ↔ length (fun i => a i - b i) < ε := by
  simp [near]

theorem near_self {ε : ℝ} (h : 0 < ε) (a : Vec) : near ε a a = true := by
  rw [near_iff]
  simpa [length] using h

theorem find_eq {α : Type*} {l : List α} {p : α → Bool} {a : α} (ha : a ∈ l) (hp : p a = true)
    (hu : ∀ b ∈ l, p b = true → b = a) : l.find? p = some a := by
  cases h : l.find? p with
  | none => rw [List.find?_eq_none] at h; exact absurd hp (h a ha)
  | some b => rw [hu b (List.mem_of_find?_eq_some h) (List.find?_some h)]

theorem findFaceId_eq {x : Fin (N + 1) → ℝ} {c : Cell D K N} (hr : Resolved x c) (k : Fin 6) :
    findFaceId c (c.map (sideMid (sideOf k))) = some k := by
  refine find_eq (List.mem_finRange k) ?_ fun k' _ h => ?_
  · rw [sideCenter_eq]
    exact near_self (by norm_num) _
  · rw [sideCenter_eq, near_iff] at h
    exact sideOf_injective (hr.centers _ _ h)

theorem mem_pairs (ab : Fin (N + 1) × Fin (N + 1)) : ab ∈ pairs N := by
  simp [pairs]

theorem findCollinear_eq {x w : Fin (N + 1) → ℝ} (hl : LineRule x w) {c : Cell D K N} (hr : Resolved x c)
    (k : Fin 6) (a b : Fin (N + 1)) :
    findCollinear x c (pos x c (lineNode k a b (stop (sideOf k).2))) k = some (a, b) := by
  refine find_eq (mem_pairs _) ?_ fun ab _ h => ?_
  · rw [sidePoint_eq hl]
    exact near_self (by norm_num) _
  · rw [sidePoint_eq hl, near_iff] at h
    exact lineNode_injective k (hr.nodes _ _ h)

/-- What the searches of a scheme should find. -/
structure Finds (w : Fin (N + 1) → ℝ) (c : Cell D K N) (s : Side) (ν : Node N) (h : Cache N) : Prop where
  ijk : h.point.ijk = ν
  normal : h.point.normal = fun i => c.assoc ν i s.1
  scale : h.point.scale = sign s * length h.point.normal
  line : (h.line.map fun gq => mass w gq.2 * gq.1).sum = sign s * sideMass w s.1 ν

/-- A scheme whose searches find it. -/
def Good (x w : Fin (N + 1) → ℝ) (S : Finder D K N) : Prop :=
  ∀ (c : Cell D K N) (s : Side) (ν : Node N), Resolved x c → ν ∈ sideNodes s →
    ∃ h, S c (c.map (sideMid s)) (pos x c ν) = some h ∧ Finds w c s ν h

theorem fluxPoint_scale (c : Cell D K N) (k : Fin 6) (a b : Fin (N + 1)) :
    (fluxPoint c k a b).scale = sign (sideOf k) * length (fluxPoint c k a b).normal := by
  simp only [fluxPoint, right_eq, sign]
  split <;> ring

theorem general_good {x w : Fin (N + 1) → ℝ} (hl : LineRule x w) (hN : 0 < N) (c_next : ℝ) :
    Good (D := D) (K := K) x w (generalCache x (Vincent.mk' N c_next)) := by
  intro c s ν hr hν
  obtain ⟨k, rfl⟩ := sideOf_surjective s
  obtain ⟨a, b, e⟩ := exists_lineNode k ν
  rw [(mem_sideNodes _ _).1 hν] at e
  subst e
  have hf := findFaceId_eq hr k
  have hc := findCollinear_eq hl hr k a b
  simp only [generalCache, hf, hc, Option.bind_eq_bind, Option.bind_some]
  refine ⟨_, rfl, ?_, ?_, fluxPoint_scale c k a b, ?_⟩
  · simp only [fluxPoint, right_eq, stop]
  · simp only [fluxPoint, right_eq, axis_eq, stop]
  · simp only [List.map_map, Function.comp_def]
    have e : ∀ l : Fin (N + 1), mass w (lineNode k a b l) *
        (if right k = true then Vincent.rightDerivative (Vincent.mk' N c_next) (x l)
          else Vincent.leftDerivative (Vincent.mk' N c_next) (x l))
        = sideMass w (sideOf k).1 (lineNode k a b (stop (sideOf k).2)) *
          (w l * if right k = true then Vincent.rightDerivative (Vincent.mk' N c_next) (x l)
            else Vincent.leftDerivative (Vincent.mk' N c_next) (x l)) := fun l => by
      rw [mass_lineNode w k a b l (stop (sideOf k).2)]; ring
    simp only [e]
    rw [← List.ofFn_eq_map, List.sum_ofFn, ← Finset.mul_sum, mul_comm]
    congr 1
    rw [right_eq, sign]
    cases (sideOf k).2
    · simp only [Bool.false_eq_true, if_false]; exact sum_left hl hN c_next
    · simp only [if_true]; exact sum_right hl hN c_next

theorem lobatto_good {x w : Fin (N + 1) → ℝ} (hl : LineRule x w) (hN : 0 < N) :
    Good (D := D) (K := K) x w (lobattoCache x (Vincent.mk' N (Vincent.huynhLumpingLobatto N))) := by
  intro c s ν hr hν
  obtain ⟨k, rfl⟩ := sideOf_surjective s
  obtain ⟨a, b, e⟩ := exists_lineNode k ν
  rw [(mem_sideNodes _ _).1 hν] at e
  subst e
  have hf := findFaceId_eq hr k
  have hc := findCollinear_eq hl hr k a b
  simp only [lobattoCache, hf, hc, Option.bind_eq_bind, Option.bind_some]
  refine ⟨_, rfl, ?_, ?_, fluxPoint_scale c k a b, ?_⟩
  · simp only [fluxPoint, right_eq, stop]
  · simp only [fluxPoint, right_eq, axis_eq, stop]
  · have h1 := huynh_right hl hN (Fin.last N)
    rw [if_pos rfl, hl.last] at h1
    have h2 := huynh_left hl hN 0
    rw [if_pos rfl, hl.first, Vincent.leftDerivative, neg_neg, h1, neg_inj] at h2
    have w1 := (hl.positive (Fin.last N)).ne'
    have w2 := (hl.positive 0).ne'
    simp only [List.map_cons, List.map_nil, List.sum_cons, List.sum_nil, add_zero, fluxPoint, h1, right_eq]
    rw [show (if (sideOf k).2 = true then Fin.last N else 0) = stop (sideOf k).2 from rfl,
      mass_lineNode w k a b _ (stop (sideOf k).2), sign]
    cases (sideOf k).2
    · simp only [stop, Bool.false_eq_true, if_false]
      rw [h2]; field_simp
    · simp only [stop, if_true]
      field_simp

/-! ### Fluxes of a cell through its sides -/

theorem length_smul (a : ℝ) (v : Vec) : length (fun i => a * v i) = |a| * length v := by
  unfold length
  rw [← Real.sqrt_sq_eq_abs, ← Real.sqrt_mul (sq_nonneg a)]
  congr 1
  ring

theorem length_nonneg (v : Vec) : 0 ≤ length v := Real.sqrt_nonneg _

theorem sideMass_pos {x w : Fin (N + 1) → ℝ} (hl : LineRule x w) (d : Fin 3) (q : Node N) :
    0 < sideMass w d q := by
  have := hl.positive
  fin_cases d <;> simp only [sideMass, Fin.zero_eta, Fin.mk_one, Fin.reduceFinMk, Matrix.cons_val] <;>
    exact mul_pos (this _) (this _)

/-- Weight from area. -/
theorem side_weight {x w : Fin (N + 1) → ℝ} (hl : LineRule x w) {c : Cell D K N} {s : Side} {out : ℝ}
    (ho : |out| = 1) {center : Vec} {points : List (FacePoint D K)} (h : IsSide x w c s out center points)
    {q : FacePoint D K} (hq : q ∈ points) {ν : Node N} (hν : ν ∈ sideNodes s) (e : q.coord = pos x c ν) :
    sideMass w s.1 ν * length (fun i => c.assoc ν i s.1) = q.weight := by
  have h1 := h.area q hq ν hν e
  have h2 : length (fun i => (sign s * sideMass w s.1 ν) * c.assoc ν i s.1)
      = length (fun i => (out * q.weight) * q.normal i) := by
    congr 1
    funext i
    rw [mul_assoc, h1 i, mul_assoc]
  have hs : |sign s| = 1 := by unfold sign; split <;> simp
  rw [length_smul, length_smul, h.unit q hq, abs_mul, abs_mul, hs, ho, one_mul, one_mul, mul_one,
    abs_of_pos (sideMass_pos hl _ _), abs_of_nonneg (h.weight q hq)] at h2
  exact h2

open scoped Classical in
/-- The inner flux through the node at a point of a side, times its weight. -/
noncomputable def flowAt (x w : Fin (N + 1) → ℝ) (c : Cell D K N) (s : Side) (r : Fin K) (y : Vec) : ℝ :=
  ∑ ν ∈ (sideNodes s).filter fun ν => pos x c ν = y,
    sign s * sideMass w s.1 ν * apply (c.flux ν) (fun i => c.assoc ν i s.1) r

/-- The inner flux through a side. -/
noncomputable def flow (w : Fin (N + 1) → ℝ) (c : Cell D K N) (s : Side) (r : Fin K) : ℝ :=
  ∑ ν ∈ sideNodes s, sign s * sideMass w s.1 ν * apply (c.flux ν) (fun i => c.assoc ν i s.1) r

theorem pos_injective {x : Fin (N + 1) → ℝ} {c : Cell D K N} (hr : Resolved x c) :
    Function.Injective (pos x c) := fun q q' h => hr.nodes q q' (by
  rw [h]; simp only [sub_self, length]; norm_num)

theorem flowAt_pos {x w : Fin (N + 1) → ℝ} {c : Cell D K N} (hr : Resolved x c) {s : Side} {ν : Node N}
    (hν : ν ∈ sideNodes s) (r : Fin K) : flowAt x w c s r (pos x c ν)
      = sign s * sideMass w s.1 ν * apply (c.flux ν) (fun i => c.assoc ν i s.1) r := by
  unfold flowAt
  rw [Finset.sum_eq_single ν]
  · intro ν' h hne
    exact absurd (pos_injective hr (Finset.mem_filter.1 h).2) hne
  · intro h
    exact (h (by simp [hν])).elim

theorem flow_sum {x w : Fin (N + 1) → ℝ} {c : Cell D K N} (hr : Resolved x c) {s : Side} {out : ℝ}
    {center : Vec} {points : List (FacePoint D K)} (h : IsSide x w c s out center points) (r : Fin K) :
    (points.map fun q => flowAt x w c s r q.coord).sum = flow w c s r := by
  have h1 := congrArg (fun m => (Multiset.map (flowAt x w c s r) m).sum) h.onNodes
  simp only [Multiset.map_coe, Multiset.sum_coe, List.map_map, Multiset.map_map] at h1
  refine Eq.trans h1 ?_
  exact Finset.sum_congr rfl fun ν hν => flowAt_pos hr hν r

theorem side_node {x w : Fin (N + 1) → ℝ} {c : Cell D K N} {s : Side} {out : ℝ}
    {center : Vec} {points : List (FacePoint D K)} (h : IsSide x w c s out center points)
    {q : FacePoint D K} (hq : q ∈ points) : ∃ ν ∈ sideNodes s, q.coord = pos x c ν := by
  have h1 : q.coord ∈ (Multiset.ofList (points.map fun q => q.coord)) :=
    Multiset.mem_coe.2 (List.mem_map_of_mem (f := fun q : FacePoint D K => q.coord) hq)
  rw [h.onNodes, Multiset.mem_map] at h1
  obtain ⟨ν, h2, h3⟩ := h1
  exact ⟨ν, h2, h3.symm⟩

/-- What a face point adds to the integral on one side. -/
theorem point_moment {x w : Fin (N + 1) → ℝ} (hl : LineRule x w) {P : Part D K N} (p : Fin P.count)
    {s : Side} {out : ℝ} (ho : |out| = 1) {center : Vec} {points : List (FacePoint D K)}
    (h : IsSide x w (P.cells p) s out center points) {q : FacePoint D K} (hq : q ∈ points) {ν : Node N}
    (hν : ν ∈ sideNodes s) (e : q.coord = pos x (P.cells p) ν) {h' : Cache N}
    (hf : Finds w (P.cells p) s ν h') (up : Value K) (m : Matrix (Fin K) (Fin 3) ℝ) (r : Fin K) :
    ((correct p.val h' (jump up (out * h'.point.scale) m h'.point.normal)).map (moment P w r)).sum
      = -(out * (q.weight * up r)) +
        sign s * sideMass w s.1 ν * apply m (fun i => (P.cells p).assoc ν i s.1) r := by
  have hw := side_weight hl ho h hq hν e
  have hs : sign s * sign s = 1 := by unfold sign; split <;> norm_num
  rw [moment_correct, hf.line, jump, hf.scale, hf.normal, ← hw]
  linear_combination (-(up r * out * length (fun i => (P.cells p).assoc ν i s.1) * sideMass w s.1 ν)) * hs

/-! ### The divergence -/

theorem sum_nodes (f : Node N → ℝ) : ((nodes N).map f).sum = ∑ q, f q := by
  have h1 : ∀ {α : Type} (l : List α) (g : α → List (Node N)),
      ((l.flatMap g).map f).sum = (l.map fun a => ((g a).map f).sum).sum := by
    intro α l g
    induction l with
    | nil => rfl
    | cons a l ih => simp [List.flatMap_cons, ih]
  have h2 : ∀ g : Fin (N + 1) → ℝ, ((List.finRange (N + 1)).map g).sum = ∑ i, g i := fun g => by
    rw [← List.ofFn_eq_map, List.sum_ofFn]
  unfold nodes
  simp only [h1, List.map_map, Function.comp_def, h2, Fintype.sum_prod_type]

theorem sum_mass_gradient {x w : Fin (N + 1) → ℝ} (hl : LineRule x w) (hN : 0 < N) (k : Node N) (d : Fin 3) :
    ∑ q, mass w q * basisGradient x q k d
      = ((if at_ k d = Fin.last N then 1 else 0) - if at_ k d = 0 then 1 else 0) * sideMass w d k := by
  have h1 := sum_derivative hl hN
  have h0 : ∀ j, ∑ q, w q * Lagrange.lineDerivatives x 0 (x q) j = w j := by
    intro j
    simp only [Lagrange.line_zeroth hl.distinct, Lagrange.line_cardinal hl.distinct, mul_ite, mul_one, mul_zero,
      Finset.sum_ite_eq, Finset.mem_univ, if_true]
  have h3 : ∀ f g e : Fin (N + 1) → ℝ, ∑ q : Node N, mass w q * (f q.1 * g q.2.1 * e q.2.2)
      = (∑ i, w i * f i) * (∑ j, w j * g j) * ∑ l, w l * e l := by
    intro f g e
    rw [Fintype.sum_prod_type]
    simp only [Fintype.sum_prod_type, mass]
    rw [Finset.sum_mul_sum, Finset.sum_mul]
    refine Finset.sum_congr rfl fun i _ => ?_
    rw [Finset.sum_mul]
    refine Finset.sum_congr rfl fun j _ => ?_
    rw [Finset.mul_sum]
    exact Finset.sum_congr rfl fun l _ => by ring
  fin_cases d
  · refine (h3 (fun i => Lagrange.lineDerivatives x 1 (x i) k.1) (fun i => Lagrange.lineDerivatives x 0 (x i) k.2.1)
      (fun i => Lagrange.lineDerivatives x 0 (x i) k.2.2)).trans ?_
    rw [h1, h0, h0, mul_assoc]; rfl
  · refine (h3 (fun i => Lagrange.lineDerivatives x 0 (x i) k.1) (fun i => Lagrange.lineDerivatives x 1 (x i) k.2.1)
      (fun i => Lagrange.lineDerivatives x 0 (x i) k.2.2)).trans ?_
    rw [h1, h0, h0, mul_comm (w k.1), mul_assoc]; rfl
  · refine (h3 (fun i => Lagrange.lineDerivatives x 0 (x i) k.1) (fun i => Lagrange.lineDerivatives x 0 (x i) k.2.1)
      (fun i => Lagrange.lineDerivatives x 1 (x i) k.2.2)).trans ?_
    rw [h1, h0, h0, mul_comm]; rfl

theorem localFlux_apply (c : Cell D K N) (q : Node N) (r : Fin K) (d : Fin 3) :
    localFlux c q r d = apply (c.flux q) (fun i => c.assoc q i d) r := by
  simp [localFlux, Matrix.mul_apply, apply]

theorem sum_ends (d : Fin 3) (f : Node N → ℝ) (w : Fin (N + 1) → ℝ) :
    ∑ k, f k * (((if at_ k d = Fin.last N then 1 else 0) - if at_ k d = 0 then 1 else 0) * sideMass w d k)
      = ∑ ν ∈ sideNodes (d, true), sign (d, true) * sideMass w d ν * f ν +
        ∑ ν ∈ sideNodes (d, false), sign (d, false) * sideMass w d ν * f ν := by
  simp only [sideNodes, Finset.sum_filter, sign, if_true, Bool.false_eq_true, if_false]
  rw [← Finset.sum_add_distrib]
  refine Finset.sum_congr rfl fun k _ => ?_
  split_ifs <;> ring

theorem divergence_moment {x w : Fin (N + 1) → ℝ} (hl : LineRule x w) (hN : 0 < N) (P : Part D K N)
    (p : Fin P.count) (r : Fin K) : ((divergence x p.val (P.cells p)).map (moment P w r)).sum
      = -(allSides.map fun s => flow w (P.cells p) s r).sum := by
  unfold divergence
  rw [List.map_map]
  simp only [Function.comp_def, moment_minusValue]
  rw [Residual.sum_map_neg, sum_nodes]
  simp only [sum_nodes]
  have h1 : ∀ k d, localFlux (P.cells p) k r d = apply ((P.cells p).flux k) (fun i => (P.cells p).assoc k i d) r :=
    fun k d => localFlux_apply _ _ _ _
  have h2 : ∑ q, mass w q * ∑ k, apply (localFlux (P.cells p) k) (basisGradient x q k) r
      = ∑ d, ∑ k, apply ((P.cells p).flux k) (fun i => (P.cells p).assoc k i d) r *
          ∑ q, mass w q * basisGradient x q k d := by
    simp only [show ∀ q k, apply (localFlux (P.cells p) k) (basisGradient x q k) r
      = ∑ d, localFlux (P.cells p) k r d * basisGradient x q k d from fun _ _ => rfl, h1]
    simp only [Finset.mul_sum]
    rw [Finset.sum_comm]
    have : ∀ k, ∑ q, ∑ d, mass w q * (apply ((P.cells p).flux k) (fun i => (P.cells p).assoc k i d) r *
        basisGradient x q k d) = ∑ d, ∑ q, apply ((P.cells p).flux k) (fun i => (P.cells p).assoc k i d) r *
        (mass w q * basisGradient x q k d) := fun k => by
      rw [Finset.sum_comm]
      exact Finset.sum_congr rfl fun d _ => Finset.sum_congr rfl fun q _ => by ring
    simp only [this]
    rw [Finset.sum_comm]
  rw [h2]
  simp only [sum_mass_gradient hl hN, sum_ends]
  simp only [allSides, List.map_cons, List.map_nil, List.sum_cons, List.sum_nil, flow, Fin.sum_univ_three]
  ring

end MiniCFD.FR
