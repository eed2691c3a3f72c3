import Verif.Props.PyMirrorLwa
import Verif.Props.PyDetector
import Verif.Props.PyDetectorSamples

/-! # C151: the jump detectors of the Python code in a mirror -/

namespace MiniCFD.PyMirrorDetector
open MiniCFD.PyQuad MiniCFD.PyExpansion MiniCFD.PyLimiter MiniCFD.PyDetector MiniCFD.Spec.PyMirror
open MiniCFD.PyMirror (integrate_mirror value_poly)
open MiniCFD.Spec.Gauss (ExactTo)

variable {p m n : ℕ} {co co' : Coordinate} {w : ℝ} {M : Value m →L[ℝ] Value m}

/-- Neighbours that hold images of each other. -/
structure Counterpart (M : Value m →L[ℝ] Value m) (w : ℝ) (b b' : Neighbour p (Value m)) : Prop where
  elements : ∃ d d' : Coordinate, d.xLeft < d.xRight ∧ Opposite w d d' ∧ Built d b.setup ∧ Built d' b'.setup
  reached : Reached b.setup b.state
  reached' : Reached b'.setup b'.state
  shift : b'.shift = -b.shift
  value : Image M w (b.setup.value b.state) (b'.setup.value b'.state)

/-- Elements that hold images of each other, with neighbours that have changed sides. -/
structure Couple (M : Value m →L[ℝ] Value m) (w : ℝ) (co co' : Coordinate) (c c' : Cell p m) : Prop where
  pos : co.xLeft < co.xRight
  opposite : Opposite w co co'
  built : Built co c.setup
  built' : Built co' c'.setup
  kind : c'.setup.kind = c.setup.kind
  degree : c.setup.kind = .lobatto → p ≤ 5
  reached : Reached c.setup c.state
  reached' : Reached c'.setup c'.state
  value : Image M w (c.setup.value c.state) (c'.setup.value c'.state)
  left : Option.Rel (Counterpart M w) c.right c'.left
  right : Option.Rel (Counterpart M w) c.left c'.right

theorem Counterpart.global {b b' : Neighbour p (Value m)} (h : Counterpart M w b b') : Image M w b.value b'.value := by
  intro x
  unfold Neighbour.value
  rw [h.value, h.shift]
  congr 2
  ring

theorem ends_mirror {d d' : Coordinate} (hd : d.xLeft < d.xRight) (ho : Opposite w d d') {s s' : Setup p} (h : Built d s)
    (h' : Built d' s') {st st' : State p (Value m)} (hr : Reached s st) (hr' : Reached s' st')
    (hv : Image M w (s.value st) (s'.value st')) :
    boundaryDerivatives s' st' 0 true = M (boundaryDerivatives s st 0 false) ∧
      boundaryDerivatives s' st' 0 false = M (boundaryDerivatives s st 0 true) := by
  have hd' : d'.xLeft < d'.xRight := by rw [ho.left, ho.right]; linarith
  obtain ⟨e1, e2⟩ := own_boundary hd h hr
  obtain ⟨e1', e2'⟩ := own_boundary hd' h' hr'
  rw [e1, e2, e1', e2', hv, hv, ho.left, ho.right, sub_sub_cancel, sub_sub_cancel]
  exact ⟨rfl, rfl⟩

theorem Counterpart.ends {b b' : Neighbour p (Value m)} (h : Counterpart M w b b') :
    boundaryValue b' true = M (boundaryValue b false) ∧ boundaryValue b' false = M (boundaryValue b true) := by
  obtain ⟨d, d', hd, ho, hB, hB'⟩ := h.elements
  exact ends_mirror hd ho hB hB' h.reached h.reached' h.value

section One
variable {c c' : Cell p m}

theorem Couple.pos' (h : Couple M w co co' c c') : co'.xLeft < co'.xRight := by
  rw [h.opposite.left, h.opposite.right]; linarith [h.pos]

theorem Couple.length (h : Couple M w co co' c c') : c'.setup.coordinate.length = c.setup.coordinate.length := by
  rw [(h.built.sane h.pos).2, (h.built'.sane h.pos').2, co.eq_linear.1, co'.eq_linear.1, h.opposite.left, h.opposite.right]
  ring

theorem Couple.center (h : Couple M w co co' c c') : c'.setup.coordinate.xCenter = w - c.setup.coordinate.xCenter := by
  rw [(h.built.sane h.pos).2, (h.built'.sane h.pos').2, co.eq_linear.2.1, co'.eq_linear.2.1, h.opposite.left,
    h.opposite.right]
  ring

theorem Couple.average (h : Couple M w co co' c c') : c'.state.average = M c.state.average := by
  have e := average_eq h.pos h.built h.degree h.reached
  have e' := average_eq h.pos' h.built' (fun hk => h.degree (h.kind ▸ hk)) h.reached'
  obtain ⟨q, _, hq⟩ := value_poly h.pos h.built h.reached
  have hcont : Continuous (c.setup.value c.state) := by
    rw [hq]
    exact continuous_finset_sum _ fun i _ => (q i).continuous.smul continuous_const
  have e2 : ∫ x in co'.xLeft..co'.xRight, c'.setup.value c'.state x = M (∫ x in co.xLeft..co.xRight, c.setup.value c.state x) := by
    rw [← M.intervalIntegral_comp_comm (hcont.intervalIntegrable _ _)]
    have : ∀ x, c'.setup.value c'.state x = (fun y => M (c.setup.value c.state y)) (w - x) := h.value
    simp only [this]
    rw [intervalIntegral.integral_comp_sub_left (fun y => M (c.setup.value c.state y)) w, h.opposite.left, h.opposite.right,
      sub_sub_cancel, sub_sub_cancel]
  rw [← e, ← e', map_smul, h.opposite.left, h.opposite.right, sub_sub_sub_cancel_left] at e2
  exact smul_right_injective _ (sub_ne_zero.2 h.pos.ne') e2

theorem abs_sub_mirror (hM : ∀ u k, |M u k| = |u k|) (u v : Value m) (k : Fin (m + 1)) : |M u k - M v k| = |u k - v k| := by
  have := hM (u - v) k
  rw [map_sub] at this
  exact this

/-- `Krivodonova2004`: the flow that comes in at one side comes in at the other side in the mirror. -/
theorem krivodonova_mirror (hM : ∀ u k, |M u k| = |u k|) {velocity velocity' : Value m → ℝ}
    (hvel : ∀ u, velocity' (M u) = -velocity u) (h : Couple M w co co' c c') :
    krivodonova velocity' c' = krivodonova velocity c := by
  have hav := h.average
  have hlen := h.length
  obtain ⟨e1, e2⟩ := ends_mirror h.pos h.opposite h.built h.built' h.reached h.reached' h.value
  have h1 := h.left
  have h2 := h.right
  unfold krivodonova
  simp only [hav, hlen, hM, e1, e2, hvel]
  obtain ⟨s, st, l, r⟩ := c
  obtain ⟨s', st', l', r'⟩ := c'
  simp only at h1 h2 ⊢
  congr 1
  funext k
  rw [add_right_comm]
  congr 1
  · congr 1
    cases h2 with
    | none => rfl
    | some hb =>
      simp only [hb.ends.1, neg_nonpos, ge_iff_le]
      split_ifs
      · exact abs_sub_mirror hM _ _ _
      · rfl
  · cases h1 with
    | none => rfl
    | some hb =>
      simp only [hb.ends.2, neg_nonneg, ge_iff_le]
      split_ifs
      · exact abs_sub_mirror hM _ _ _
      · rfl

theorem Couple.modeWeight (h : Couple M w co co' c c') (k : Fin (p + 1)) :
    c'.setup.modeWeight k = c.setup.modeWeight k := by
  unfold Setup.modeWeight
  rw [(h.built.sane h.pos).2, (h.built'.sane h.pos').2, co.eq_linear.2.2.1, co'.eq_linear.2.2.1, h.opposite.left,
    h.opposite.right, sub_sub_sub_cancel_left]

/-- The energies of the modes. -/
theorem energy_mirror (hM : ∀ u k, |M u k| = |u k|) (h : Couple M w co co' c c') (hk : c.setup.kind = .modal)
    (k : Fin (m + 1)) (i : Fin (p + 1)) :
    energy c'.setup c'.state.coeff k i = energy c.setup c.state.coeff k i := by
  have hk' := h.kind.trans hk
  have hb : ∀ x j, c.setup.basisValues x j = Vincent.legendre j (co.globalToLocal x) := fun x j =>
    (basis_values h.pos h.built j).2.2 hk x
  have hb' : ∀ x j, c'.setup.basisValues x j = Vincent.legendre j (co'.globalToLocal x) := fun x j =>
    (basis_values h.pos' h.built' j).2.2 hk' x
  let a : Fin (p + 1) → Value m := fun j => (-1 : ℝ) ^ (j : ℕ) • M (c.state.coeff j)
  have e : ∀ x, c'.setup.value (setCoeff c'.setup a) x = c'.setup.value c'.state x := by
    intro x
    rw [h.value, value_eq h.pos' h.built' (.coeff _ rfl), value_eq h.pos h.built h.reached, map_sum]
    refine Finset.sum_congr rfl fun j _ => ?_
    rw [hb, hb', PyMirrorLimiter.local_mirror h.pos h.opposite, Vincent.legendre_neg, map_smul]
    show _ • ((-1 : ℝ) ^ (j : ℕ) • M (c.state.coeff j)) = _
    rw [smul_smul]
    congr 1
    linear_combination Vincent.legendre j (co.globalToLocal (w - x)) * PyMirrorLimiter.sign_sq j
  obtain ⟨rule, exact⟩ := gauss_exists p
  have et : (setCoeff c'.setup a).taylor = c'.state.taylor := by
    refine taylor_unique (c := co') exact h.pos' fun x => ?_
    have := e x
    simpa only [Setup.value, (h.built'.sane h.pos').2] using this
  have r1 := (round_trip h.pos' h.built' a a).2.2.1
  have r2 := (round_trip h.pos' h.built' c'.state.coeff a).2.2.1
  rw [← h.reached'.eq_setCoeff h.pos' h.built'] at r2
  rw [et, r2] at r1
  have ec : c'.state.coeff i = (-1 : ℝ) ^ (i : ℕ) • M (c.state.coeff i) := by rw [r1]; rfl
  unfold energy
  rw [h.modeWeight, ec, Pi.smul_apply, smul_eq_mul, mul_pow, PyMirrorLimiter.sign_sq, one_mul, ← sq_abs, hM, sq_abs]

/-- `Persson2006`. -/
theorem persson_mirror (hM : ∀ u k, |M u k| = |u k|) (h : Couple M w co co' c c') : persson c' = persson c := by
  unfold persson perssonSensor
  rw [h.kind]
  split_ifs with hp
  · rfl
  · by_cases hk : c.setup.kind = .modal
    · have he := fun k n => energy_mirror hM h hk k n
      simp only [hk, he]
    · cases hs : c.setup.kind <;> first | exact absurd hs hk | rfl

/-- `Kloeckner2011`, on any basis, with the same memory. -/
theorem kloeckner_mirror (hM : ∀ u k, |M u k| = |u k|) (memory : Fin (p + 1) → Value m) (h : Couple M w co co' c c') :
    kloeckner memory c' ↔ kloeckner memory c := by
  have : ∀ k, kloecknerSlope memory c'.setup c'.state k = kloecknerSlope memory c.setup c.state k := by
    intro k
    unfold kloecknerSlope
    rw [h.kind]
    by_cases hk : c.setup.kind = .modal
    · have he : energy c'.setup c'.state.coeff k = energy c.setup c.state.coeff k := funext fun n => energy_mirror hM h hk k n
      simp only [hk, he]
    · have he : energy c'.setup memory k = energy c.setup memory k := funext fun n => by
        unfold energy; rw [h.modeWeight]
      cases hs : c.setup.kind <;> first | exact absurd hs hk | simp only [he]
  unfold kloeckner
  simp only [this]

end One

section Many
variable {cells cells' : Fin (n + 1) → Cell p m}

theorem previous_rev (i : Fin (n + 1)) : previous i.rev = (next i).rev := by
  unfold previous next
  ext
  by_cases h : i = Fin.last n
  · subst h
    simp
  · have hi : i.val < n := Fin.val_lt_last h
    have h0 : i.rev ≠ 0 := fun h0 => h (by rw [← Fin.rev_rev i, h0, Fin.rev_zero])
    rw [if_neg h0]
    simp only [Fin.val_rev, Nat.mod_eq_of_lt (show i.val + 1 < n + 1 by omega)]
    omega

theorem next_rev (i : Fin (n + 1)) : next i.rev = (previous i).rev := by
  have := previous_rev (next i.rev).rev
  unfold previous next at *
  ext
  by_cases h : i = 0
  · subst h
    simp
  · have hi : 0 < i.val := Nat.pos_of_ne_zero fun h0 => h (Fin.ext h0)
    rw [if_neg h]
    simp only [Fin.val_rev]
    rw [Nat.mod_eq_of_lt (by omega)]
    omega

/-- `LiWanAi2011`. -/
theorem liWanAi_mirror (hM : ∀ u k, |M u k| = |u k|)
    (h : ∀ i, ∃ co co', Couple M w co co' (cells i) (cells' i.rev)) (i : Fin (n + 1)) :
    liWanAi cells' i.rev = liWanAi cells i := by
  have hav : ∀ j k, |(cells' (Fin.rev j)).state.average k| = |(cells j).state.average k| := by
    intro j k
    obtain ⟨_, _, hj⟩ := h j
    rw [hj.average, hM]
  obtain ⟨_, _, hi⟩ := h i
  have h1 := hi.left
  have h2 := hi.right
  have e0 : (cells' i.rev).setup.value (cells' i.rev).state (w - (cells i).setup.coordinate.xCenter) =
      M ((cells i).setup.value (cells i).state (cells i).setup.coordinate.xCenter) := by
    rw [hi.value, sub_sub_cancel]
  have e : ∀ {b b' : Neighbour p (Value m)}, Counterpart M w b b' → ∀ k,
      |M ((cells i).setup.value (cells i).state (cells i).setup.coordinate.xCenter) k -
          b'.value (w - (cells i).setup.coordinate.xCenter) k| =
        |(cells i).setup.value (cells i).state (cells i).setup.coordinate.xCenter k -
          b.value (cells i).setup.coordinate.xCenter k| := by
    intro b b' hb k
    rw [hb.global, sub_sub_cancel, abs_sub_mirror hM]
  unfold liWanAi
  dsimp only
  rw [previous_rev, next_rev, hi.center, hi.length, e0]
  simp only [hav]
  generalize (cells i).left = L at h2 ⊢
  generalize (cells i).right = R at h1 ⊢
  generalize (cells' i.rev).left = L' at h1 ⊢
  generalize (cells' i.rev).right = R' at h2 ⊢
  cases h1 with
  | none =>
    cases h2 with
    | none => rfl
    | some hb => simp only [e hb, Pi.zero_apply]
  | some ha =>
    cases h2 with
    | none => simp only [e ha, Pi.zero_apply]
    | some hb =>
      simp only [e ha, e hb]
      congr 1
      · funext k; ring
      · funext k; rw [min_right_comm]

/-- `ZhuJun2021`. -/
theorem zhuJun_mirror (hM : ∀ u k, |M u k| = |u k|)
    (h : ∀ i, ∃ co co', Couple M w co co' (cells i) (cells' i.rev)) (i : Fin (n + 1)) :
    zhuJun cells' i.rev = zhuJun cells i := by
  have hn : ∀ j k, ((cells' (Fin.rev j)).setup.integrator.norm1 fun x =>
      (cells' (Fin.rev j)).setup.value (cells' (Fin.rev j)).state x k) =
        (cells j).setup.integrator.norm1 fun x => (cells j).setup.value (cells j).state x k := by
    intro j k
    obtain ⟨_, _, hj⟩ := h j
    unfold Integrator.norm1
    rw [integrate_mirror hj.pos hj.opposite hj.built hj.built' (by rw [hj.kind])]
    congr 1
    funext x
    show |(cells' (Fin.rev j)).setup.value (cells' (Fin.rev j)).state (w - x) k| = |(cells j).setup.value (cells j).state x k|
    rw [hj.value, sub_sub_cancel, hM]
  obtain ⟨_, _, hi⟩ := h i
  have h1 := hi.left
  have h2 := hi.right
  have e : ∀ {b b' : Neighbour p (Value m)}, Counterpart M w b b' → ∀ k,
      difference (cells' i.rev) b' k = difference (cells i) b k := by
    intro b b' hb k
    have hd : (cells' i.rev).setup.integrator.integrate (fun x => (cells' i.rev).setup.value (cells' i.rev).state x - b'.value x) =
        M ((cells i).setup.integrator.integrate fun x => (cells i).setup.value (cells i).state x - b.value x) := by
      rw [integrate_mirror hi.pos hi.opposite hi.built hi.built' (by rw [hi.kind]), Integrator.integrate_eq,
        Integrator.integrate_eq, map_sum]
      refine Finset.sum_congr rfl fun j _ => ?_
      rw [map_smul, map_sub, hi.value, hb.global, sub_sub_cancel]
    unfold difference
    rw [hd, hM]
  unfold zhuJun
  dsimp only
  rw [previous_rev, next_rev, hi.length]
  simp only [hn]
  generalize (cells i).left = L at h2 ⊢
  generalize (cells i).right = R at h1 ⊢
  generalize (cells' i.rev).left = L' at h1 ⊢
  generalize (cells' i.rev).right = R' at h2 ⊢
  cases h1 with
  | none =>
    cases h2 with
    | none => rfl
    | some hb => simp only [e hb, Pi.zero_apply]
  | some ha =>
    cases h2 with
    | none => simp only [e ha, Pi.zero_apply]
    | some hb =>
      simp only [e ha, e hb]
      congr 1
      · funext k; rw [max_right_comm]
      · funext k; rw [min_right_comm]

theorem sample_mirror {c c' : Cell p m} (h : Couple M w co co' c c') {j : ℕ} (hj : j < perCell p) :
    sampleAt c' (perCell p - 1 - j) = M (sampleAt c j) := by
  have h3 := perCell_ge p
  unfold sampleAt
  dsimp only
  rw [h.value, h.length, (h.built.sane h.pos).2, (h.built'.sane h.pos').2, h.opposite.left, h.opposite.right]
  congr 2
  have hN : ((perCell p - 1 : ℕ) : ℝ) ≠ 0 := by
    have : 0 < perCell p - 1 := by omega
    positivity
  unfold Integrator.linspace
  rw [Nat.cast_sub (show j ≤ perCell p - 1 by omega)]
  field_simp
  ring

theorem wrap_rev {count i s : ℕ} (hi : i < count) (hs : s ≤ count) :
    wrap count (((count - 1 - i : ℕ) : ℤ) - s) = count - 1 - (i + s) % count := by
  unfold wrap
  by_cases h : i + s < count
  · rw [Nat.mod_eq_of_lt h, if_neg (by omega)]; omega
  · rw [Nat.mod_eq_sub_mod (by omega), Nat.mod_eq_of_lt (by omega), if_pos (by omega)]; omega

theorem mod_rev {count i s : ℕ} (hi : i < count) (hs : s ≤ count) :
    (count - 1 - i + s) % count = count - 1 - wrap count ((i : ℤ) - s) := by
  unfold wrap
  by_cases h : s ≤ i
  · rw [Nat.mod_eq_of_lt (by omega), if_neg (by omega)]; omega
  · rw [Nat.mod_eq_sub_mod (by omega), Nat.mod_eq_of_lt (by omega), if_pos (by omega)]; omega

theorem wrap_lt {count i s : ℕ} (hi : i < count) (hs : s ≤ count) : wrap count ((i : ℤ) - s) < count := by
  unfold wrap
  split_ifs <;> omega

theorem psi_mirror (hM : ∀ u k, |M u k| = |u k|) {count : ℕ} (h2 : 2 ≤ count) {u u' : ℕ → Value m}
    (hu : ∀ i < count, u' (count - 1 - i) = M (u i)) {i : ℕ} (hi : i < count) :
    psiAt count u' (count - 1 - i) = psiAt count u i := by
  have two : ∀ a b c : Value m, ∀ k, |M a k - 2 * M b k + M c k| = |a k - 2 * b k + c k| := by
    intro a b c k
    have := hM (a - (2 : ℝ) • b + c) k
    simpa only [map_add, map_sub, map_smul, Pi.add_apply, Pi.sub_apply, Pi.smul_apply, smul_eq_mul] using this
  have w1 := wrap_rev hi (show 1 ≤ count by omega)
  have w2 := wrap_rev hi h2
  have m1 := mod_rev hi (show 1 ≤ count by omega)
  have m2 := mod_rev hi h2
  have l1 := wrap_lt hi (show 1 ≤ count by omega)
  have l2 := wrap_lt hi h2
  push_cast only [Nat.cast_one, Nat.cast_ofNat] at w1 w2 m1 m2 l1 l2
  funext k
  unfold psiAt
  dsimp only
  rw [w1, w2, m1, m2, hu i hi, hu _ l1, hu _ l2, hu _ (Nat.mod_lt _ (by omega)), hu _ (Nat.mod_lt _ (by omega))]
  simp only [two, abs_sub_mirror hM]
  ring

theorem psiValues_mirror (hM : ∀ u k, |M u k| = |u k|) (periodic : Bool) {count : ℕ} (h2 : 2 ≤ count) {u u' : ℕ → Value m}
    (hu : ∀ i < count, u' (count - 1 - i) = M (u i)) {i : ℕ} (hi : i < count) :
    psiValues periodic count u' (count - 1 - i) = psiValues periodic count u i := by
  unfold psiValues
  rw [psi_mirror hM h2 hu hi]
  have : (count - 1 - i = 0 ∨ count - 1 - i = 1 ∨ count - 1 - i = count - 1 ∨ count - 1 - i = count - 2) ↔
      (i = 0 ∨ i = 1 ∨ i = count - 1 ∨ i = count - 2) := by omega
  simp only [this]

/-- `LiYanHui2022`. -/
theorem liYanHui_mirror (hM : ∀ u k, |M u k| = |u k|) (periodic : Bool)
    (h : ∀ i, ∃ co co', Couple M w co co' (cells i) (cells' i.rev)) (i : Fin (n + 1)) :
    i.rev ∈ liYanHui periodic cells' ↔ i ∈ liYanHui periodic cells := by
  have h3 := perCell_ge p
  have hrev : ∀ (c : Fin (n + 1)) {j : ℕ}, j < perCell p →
      (n + 1) * perCell p - 1 - (perCell p * c + j) = perCell p * (c.rev : Fin (n + 1)) + (perCell p - 1 - j) := by
    intro c j hj
    have hc : (c : ℕ) + (c.rev : ℕ) = n := by rw [Fin.val_rev]; omega
    have e : (n + 1) * perCell p = perCell p * c + perCell p * (c.rev : ℕ) + perCell p := by
      have : ((c : ℕ) + (c.rev : ℕ) + 1) * perCell p = perCell p * c + perCell p * (c.rev : ℕ) + perCell p := by ring
      rwa [hc] at this
    omega
  have hlt : ∀ (c : Fin (n + 1)) {j : ℕ}, j < perCell p → perCell p * c + j < (n + 1) * perCell p := by
    intro c j hj
    have hc : (c : ℕ) + (c.rev : ℕ) = n := by rw [Fin.val_rev]; omega
    have e : (n + 1) * perCell p = perCell p * c + perCell p * (c.rev : ℕ) + perCell p := by
      have : ((c : ℕ) + (c.rev : ℕ) + 1) * perCell p = perCell p * c + perCell p * (c.rev : ℕ) + perCell p := by ring
      rwa [hc] at this
    omega
  have hu : ∀ l < (n + 1) * perCell p, samples cells' ((n + 1) * perCell p - 1 - l) = M (samples cells l) := by
    intro l hl
    obtain ⟨c, j, hj, e, hs⟩ := samples_split cells hl
    obtain ⟨_, _, hc⟩ := h c
    rw [hs, e, hrev c hj, samples_at cells' _ (by omega), sample_mirror hc hj]
  have h2 : 2 ≤ (n + 1) * perCell p := by nlinarith
  have hp := fun {l} (hl : l < _) => psiValues_mirror hM periodic h2 hu hl
  have key : ∀ j < perCell p, ∀ k,
      min (min (psiValues periodic ((n + 1) * perCell p) (samples cells') (perCell p * i.rev + (perCell p - 1 - j)) k)
        (psiValues periodic ((n + 1) * perCell p) (samples cells')
          (wrap ((n + 1) * perCell p) ((perCell p * i.rev + (perCell p - 1 - j) : ℕ) - 1)) k))
        (psiValues periodic ((n + 1) * perCell p) (samples cells')
          ((perCell p * i.rev + (perCell p - 1 - j) + 1) % ((n + 1) * perCell p)) k) =
      min (min (psiValues periodic ((n + 1) * perCell p) (samples cells) (perCell p * i + j) k)
        (psiValues periodic ((n + 1) * perCell p) (samples cells)
          (wrap ((n + 1) * perCell p) ((perCell p * i + j : ℕ) - 1)) k))
        (psiValues periodic ((n + 1) * perCell p) (samples cells)
          ((perCell p * i + j + 1) % ((n + 1) * perCell p)) k) := by
    intro j hj k
    have hl := hlt i hj
    have w1 := wrap_rev hl (show 1 ≤ (n + 1) * perCell p by omega)
    have m1 := mod_rev hl (show 1 ≤ (n + 1) * perCell p by omega)
    have l1 := wrap_lt hl (show 1 ≤ (n + 1) * perCell p by omega)
    rw [Nat.cast_one] at w1 m1 l1
    rw [← hrev i hj, w1, m1, hp hl, hp l1, hp (Nat.mod_lt _ (by omega)), min_right_comm]
  rw [liYanHui_mem, liYanHui_mem]
  constructor
  · rintro ⟨j, hj, k, hk⟩
    refine ⟨perCell p - 1 - j, by omega, k, ?_⟩
    rw [← key _ (by omega)]
    rwa [show perCell p - 1 - (perCell p - 1 - j) = j by omega]
  · rintro ⟨j, hj, k, hk⟩
    refine ⟨perCell p - 1 - j, by omega, k, ?_⟩
    rwa [key _ hj]

/-- C151: The elements that are reported on the mirrored grid are the images of those reported on the grid. -/
theorem reported_mirror (hM : ∀ u k, |M u k| = |u k|) {velocity velocity' : Value m → ℝ}
    (hvel : ∀ u, velocity' (M u) = -velocity u) (periodic : Bool) (bound : ℝ)
    (h : ∀ i, ∃ co co', Couple M w co co' (cells i) (cells' i.rev)) (i : Fin (n + 1)) :
    (i.rev ∈ troubled bound (fun j => krivodonova velocity' (cells' j)) ↔
        i ∈ troubled bound (fun j => krivodonova velocity (cells j))) ∧
      (i.rev ∈ troubled bound (liWanAi cells') ↔ i ∈ troubled bound (liWanAi cells)) ∧
      (i.rev ∈ troubled bound (zhuJun cells') ↔ i ∈ troubled bound (zhuJun cells)) ∧
      (i.rev ∈ liYanHui periodic cells' ↔ i ∈ liYanHui periodic cells) ∧
      persson (cells' i.rev) = persson (cells i) ∧
      ∀ memory, kloeckner memory (cells' i.rev) ↔ kloeckner memory (cells i) := by
  obtain ⟨_, _, hi⟩ := h i
  refine ⟨?_, ?_, ?_, liYanHui_mirror hM periodic h i, persson_mirror hM hi, fun memory => kloeckner_mirror hM memory hi⟩
  · rw [(troubled_spec _ _).1, (troubled_spec _ _).1, krivodonova_mirror hM hvel hi]
  · rw [(troubled_spec _ _).1, (troubled_spec _ _).1, liWanAi_mirror hM h]
  · rw [(troubled_spec _ _).1, (troubled_spec _ _).1, zhuJun_mirror hM h]

end Many

private def ends : Fin 2 → Coordinate := ![.linear 0 1, .linear 1 2]

/-- The odd function `x - 1` on two elements is its own image, with the sign changed. -/
example (roots : Rule 1) (exact : ExactTo roots.apply 3) :
    ∃ cells : Fin 2 → Cell 1 0, (∀ i x, (cells i).setup.value (cells i).state x = fun _ => x - 1) ∧
      (∀ i, ∃ co co', Couple (-ContinuousLinearMap.id ℝ (Value 0)) 2 co co' (cells i) (cells i.rev)) ∧
      zhuJun cells 1 = zhuJun cells 0 := by
  have hc : ∀ i, (ends i).xLeft < (ends i).xRight := by
    intro i; fin_cases i <;> simp [ends, Coordinate.xLeft, Coordinate.xRight]
  choose setup hs using fun i => modal_defined (hc i) roots
  have hk : ∀ i, (setup i).kind = .modal := fun i => (modal_sane (hc i) (hs i)).2.1
  have hB : ∀ i, Built (ends i) (setup i) := fun i => .modal _ exact (hs i)
  set states : Fin 2 → State 1 (Value 0) := fun i =>
    setCoeff (setup i) (![![fun _ => -1 / 2, fun _ => 1 / 2], ![fun _ => 1 / 2, fun _ => 1 / 2]] i) with hst
  have hr : ∀ i, Reached (setup i) (states i) := fun i => .coeff _ rfl
  have hv : ∀ i x, (setup i).value (states i) x = fun _ => x - 1 := by
    intro i x
    funext k
    rw [value_eq (hc i) (hB i) (hr i), Fin.sum_univ_two, (modal_sane (hc i) (hs i)).2.2.2.2.2,
      (modal_sane (hc i) (hs i)).2.2.2.2.2]
    fin_cases i <;> simp [states, setCoeff, Vincent.legendre, ends, Coordinate.globalToLocal] <;> ring
  have ho : ∀ i, Opposite 2 (ends i) (ends i.rev) := by
    intro i
    fin_cases i <;> constructor <;> simp [ends, Coordinate.xLeft, Coordinate.xRight] <;> norm_num
  have him : ∀ i j : Fin 2, Image (-ContinuousLinearMap.id ℝ (Value 0)) 2 ((setup i).value (states i))
      ((setup j).value (states j)) := by
    intro i j x
    rw [hv, hv]
    funext k
    show x - 1 = -(2 - x - 1)
    ring
  have hcp : ∀ i, Counterpart (-ContinuousLinearMap.id ℝ (Value 0)) 2 (⟨setup i, states i, 0⟩ : Neighbour 1 (Value 0))
      ⟨setup i.rev, states i.rev, 0⟩ := fun i =>
    ⟨⟨_, _, hc i, ho i, hB i, hB _⟩, hr i, hr _, neg_zero.symm, him _ _⟩
  let cells : Fin 2 → Cell 1 0 := fun i => ⟨setup i, states i, if i = 0 then none else some ⟨setup 0, states 0, 0⟩,
    if i = 1 then none else some ⟨setup 1, states 1, 0⟩⟩
  have hcouple : ∀ i, ∃ co co', Couple (-ContinuousLinearMap.id ℝ (Value 0)) 2 co co' (cells i) (cells i.rev) := by
    intro i
    refine ⟨_, _, hc i, ho i, hB i, hB _, (hk _).trans (hk _).symm, fun h => ?_, hr i, hr _, him _ _, ?_, ?_⟩
    · rw [hk] at h; cases h
    · fin_cases i
      · exact .some (hcp 1)
      · exact .none
    · fin_cases i
      · exact .none
      · exact .some (hcp 0)
  refine ⟨cells, hv, hcouple, ?_⟩
  refine zhuJun_mirror (fun u k => ?_) hcouple 0
  show |-(u k)| = |u k|
  exact abs_neg _

end MiniCFD.PyMirrorDetector
